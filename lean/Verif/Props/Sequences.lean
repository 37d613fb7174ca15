import Verif.Lemmas.Sequences
/-
Property C33: FastSequence and BufferVector are memory safe and act as sequences.
-/
namespace OpenGM
namespace Sequences
open Spec
variable {V : Type}

/-- In every state that the history passes through, the next call is `safe`. -/
def SafeHistory {S : Type} (step : World V S → SeqOp V → Option (World V S)) (safe : World V S → SeqOp V → Prop) :
    World V S → List (SeqOp V) → Prop
  | _, [] => True
  | w, op :: ops => safe w op ∧ ∀ w', step w op = some w' → SafeHistory step safe w' ops

/-- No object, no memory. -/
def World.start {S : Type} : World V S := ⟨[], []⟩

/-- The objects and the memory are as the contents `cs` say: the objects exist, have the right sizes, all entries can be read and have
the specified values; no two objects use the same heap block; and every heap block that has not been freed is used by an object (so that
nothing is left when all objects are destroyed). -/
structure Faithful {S : Type} (size : S → Nat) (ptr : S → Ptr) (get : Heap V → S → Nat → Option (Option V)) (w : World V S) (cs : Contents V) : Prop where
  length : w.objs.length = cs.length
  destroyed : ∀ i : Nat, cs[i]? = some none → w.objs[i]? = some none
  contents : ∀ (i : Nat) (c : List (Option V)), cs[i]? = some (some c) → ∃ s, w.objs[i]? = some (some s) ∧ size s = c.length ∧
    ∀ k, k < c.length → ∃ x, get w.heap s k = some x ∧ ∀ v, c[k]? = some (some v) → x = some v
  separate : ∀ (i j : Nat) (s t : S) (a : Nat), w.objs[i]? = some (some s) → w.objs[j]? = some (some t) → ptr s = .heap a → ptr t = .heap a → i = j
  noLeak : (∀ (i : Nat) (c : List (Option V)), cs[i]? ≠ some (some c)) → ∀ (a : Nat) (b : Block V), w.heap[a]? ≠ some (some b)

theorem WInv.faithful {S : Type} {Ok : Heap V → S → Block V → Prop} {ptr : S → Ptr} {size : S → Nat} {get : Heap V → S → Nat → Option (Option V)}
    {w : World V S} {cs : Contents V} (hw : WInv Ok ptr w cs)
    (hsize : ∀ h s c, Ok h s c → size s = c.length)
    (hget : ∀ h s c, Ok h s c → ∀ k, k < c.length → ∃ x, get h s k = some x ∧ ∀ v, c[k]? = some (some v) → x = some v) :
    Faithful size ptr get w cs where
  length := hw.length
  destroyed := fun i h => (hw.alive i).mpr h
  contents := fun i c hc => by
    obtain ⟨s, hs, hok⟩ := hw.obj hc
    exact ⟨s, hs, hsize _ _ _ hok, hget _ _ _ hok⟩
  separate := hw.distinct
  noLeak := fun hn a b hb => by
    obtain ⟨i, s, hs, _⟩ := hw.noLeak a b hb
    obtain ⟨c, hc, _⟩ := hw.content hs
    exact hn i c hc

theorem WInv.start {S : Type} (Ok : Heap V → S → Block V → Prop) (ptr : S → Ptr) : WInv Ok ptr (World.start : World V S) [] where
  length := rfl
  alive := by simp [World.start]
  ok := by simp [World.start]
  distinct := by simp [World.start]
  noLeak := by simp [World.start]

theorem run_inv {S : Type} {Ok : Heap V → S → Block V → Prop} {ptr : S → Ptr} {step : World V S → SeqOp V → Option (World V S)}
    {safe : World V S → SeqOp V → Prop}
    (hstep : ∀ w cs cs' op, WInv Ok ptr w cs → op.apply cs = some cs' → safe w op → ∃ w', step w op = some w' ∧ WInv Ok ptr w' cs') :
    ∀ (ops : List (SeqOp V)) (w : World V S) (cs cs' : Contents V), WInv Ok ptr w cs → SeqOp.applyAll cs ops = some cs' →
      SafeHistory step safe w ops → ∃ w', run step w ops = some w' ∧ WInv Ok ptr w' cs' := by
  intro ops
  induction ops with
  | nil =>
    intro w cs cs' hw h _
    injection h with h
    subst h
    exact ⟨w, rfl, hw⟩
  | cons op ops ih =>
    intro w cs cs' hw h hsafe
    rw [SeqOp.applyAll] at h
    split at h
    · exact absurd h (by simp)
    · rename_i cs1 h1
      obtain ⟨w1, e1, hw1⟩ := hstep w cs cs1 op hw h1 hsafe.1
      obtain ⟨w', e2, hw'⟩ := ih w1 cs1 cs' hw1 h (hsafe.2 w1 e1)
      exact ⟨w', by rw [run, e1]; exact e2, hw'⟩

/-! ### FastSequence -/

/-- Calls that FastSequence handles: it is copied only while its array is not larger than needed (capacity = max(size, MAX_STACK));
a sequence that has a heap block is assigned to only if both its old and its new size exceed MAX_STACK; an entry of the sequence itself is appended only if no heap block has to be replaced. -/
def FS.Safe (max : Nat) (w : World V (FS V)) : SeqOp V → Prop
  | .copy i => ∀ s, w.objs[i]? = some (some s) → s.capacity = if max < s.size then s.size else max
  | .assign i j => i ≠ j → ∀ s o, w.objs[i]? = some (some s) → w.objs[j]? = some (some o) →
      if max < o.size then (max < s.size ↔ max < s.capacity) else s.capacity = max
  | .pushOwn i _ => ∀ s, w.objs[i]? = some (some s) → ¬ (s.capacity = s.size ∧ max < s.capacity)
  | _ => True

theorem modify_const {cs cs' : Contents V} {i : Nat} {f : Block V → Option (Block V)} (h : cs.modify i f = some cs') :
    ∃ c c', cs[i]? = some (some c) ∧ f c = some c' ∧ cs' = cs.set i (some c') := by
  unfold Contents.modify at h
  split at h
  · rename_i c hc
    split at h
    · rename_i c' hc'
      injection h with h
      exact ⟨c, c', hc, hc', h.symm⟩
    · exact absurd h (by simp)
  · exact absurd h (by simp)

theorem set_same {α : Type} {l : List α} {i : Nat} {x : α} (h : l[i]? = some x) : l.set i x = l := by
  apply List.ext_getElem?
  intro j
  by_cases hj : i = j
  · subst hj
    rw [List.getElem?_set_self (by by_contra hc; rw [List.getElem?_eq_none (by omega)] at h; exact absurd h (by simp)), h]
  · rw [List.getElem?_set_ne hj]

theorem FS.step_inv {max : Nat} (hmax : 0 < max) (w : World V (FS V)) (cs cs' : Contents V) (op : SeqOp V)
    (hw : WInv (FS.Ok max) FS.ptr w cs) (h : op.apply cs = some cs') (hsafe : FS.Safe max w op) :
    ∃ w', FS.step max w op = some w' ∧ WInv (FS.Ok max) FS.ptr w' cs' := by
  have hf := FS.framed (V := V) max
  cases op with
  | new =>
    injection h with h
    subst h
    exact ⟨_, rfl, hw.add hf (.same notHeap_null notHeap_stack) (FS.new_ok _)⟩
  | newSize n =>
    injection h with h
    subst h
    obtain ⟨h', s, e, ok, m⟩ := FS.newSize_spec (max := max) w.heap n
    exact ⟨_, by simp only [FS.step, World.add, e], hw.add hf m ok⟩
  | newFill n v =>
    injection h with h
    subst h
    obtain ⟨h', s, e, ok, m⟩ := FS.newFill_spec (max := max) w.heap n v
    exact ⟨_, by simp only [FS.step, World.add, e], hw.add hf m ok⟩
  | copy i =>
    simp only [SeqOp.apply] at h
    split at h
    · rename_i c hc
      injection h with h
      subst h
      obtain ⟨s, hs, ok⟩ := hw.obj hc
      obtain ⟨h', s', e, ok', m⟩ := FS.copy_spec ok (hsafe s hs)
      exact ⟨_, by simp only [FS.step, World.add, hs, e], hw.add hf m ok'⟩
    · exact absurd h (by simp)
  | destroy i =>
    simp only [SeqOp.apply] at h
    split at h
    · rename_i c hc
      injection h with h
      subst h
      obtain ⟨s, hs, ok⟩ := hw.obj hc
      obtain ⟨h', e, m⟩ := FS.destroy_spec ok
      exact ⟨_, by simp only [FS.step, hs, e], hw.remove hf hs m⟩
    · exact absurd h (by simp)
  | assign i j =>
    simp only [SeqOp.apply] at h
    split at h
    · rename_i d hd
      by_cases hij : i = j
      · subst hij
        obtain ⟨c, c', _, h2, rfl⟩ := modify_const h
        injection h2 with h2
        subst h2
        rw [set_same hd]
        exact ⟨w, by simp [FS.step], hw⟩
      · obtain ⟨o, ho, oko⟩ := hw.obj hd
        obtain ⟨w', e, hw'⟩ := hw.modify hf h (g := fun h s => FS.assign max h s o) (by
          intro s c c' hs hc ok hcc
          injection hcc with hcc
          subst hcc
          exact FS.assign_spec ok oko (fun a ha ha' => hij (hw.distinct i j s o a hs ho ha ha')) (hsafe hij s o hs ho))
        exact ⟨w', by simp only [FS.step, if_neg hij, ho, e], hw'⟩
    · exact absurd h (by simp)
  | push i v =>
    simp only [SeqOp.apply] at h
    exact hw.modify hf h (g := fun h s => FS.push max h s v) (by
      intro s c c' hs hc ok hcc
      injection hcc with hcc
      subst hcc
      exact FS.push_spec hmax ok v)
  | pushOwn i k =>
    simp only [SeqOp.apply] at h
    refine hw.modify hf h (g := fun h s => FS.pushOwn max h s k) ?_
    intro s c c' hs hc ok hcc
    split at hcc
    · rename_i x hx
      injection hcc with hcc
      subst hcc
      exact FS.pushOwn_spec hmax ok k x hx (hsafe s hs)
    · exact absurd hcc (by simp)
  | resize i n =>
    simp only [SeqOp.apply] at h
    refine hw.modify hf h (g := fun h s => FS.resize max h s n) ?_
    intro s c c' hs hc ok hcc
    injection hcc with hcc
    subst hcc
    obtain ⟨h', s', a1, a2, a3, _⟩ := FS.resize_spec ok n
    exact ⟨h', s', a1, a2, a3⟩
  | reserve i n =>
    simp only [SeqOp.apply] at h
    refine hw.modify hf h (g := fun h s => FS.reserve max h s n) ?_
    intro s c c' hs hc ok hcc
    injection hcc with hcc
    subst hcc
    exact FS.reserve_spec ok n
  | clear i =>
    simp only [SeqOp.apply] at h
    refine hw.modify hf h (g := fun h s => FS.clear max h s) ?_
    intro s c c' hs hc ok hcc
    injection hcc with hcc
    subst hcc
    exact FS.clear_spec ok
  | assignRange i vs =>
    simp only [SeqOp.apply] at h
    refine hw.modify hf h (g := fun h s => FS.assignRange max h s vs) ?_
    intro s c c' hs hc ok hcc
    injection hcc with hcc
    subst hcc
    exact FS.assignRange_spec ok vs
  | set i k v =>
    simp only [SeqOp.apply] at h
    refine hw.modify hf h (g := fun h s => FS.set h s k v) ?_
    intro s c c' hs hc ok hcc
    split at hcc
    · rename_i hk
      injection hcc with hcc
      subst hcc
      exact FS.set_spec ok k v hk
    · exact absurd hcc (by simp)

/-- C33 for FastSequence. Every history of allowed calls that is safe in the sense of `FS.Safe` only accesses memory that is alive, frees
nothing twice, and leaves the sequences with the contents that the calls specify; nothing is leaked.

Missing from the full property: histories that copy a sequence with spare capacity, assign to a sequence that has a heap block it
does not need (or stops needing), or append an entry of the sequence itself while the heap block is full. The code fails on these:
`C33_violated_copy`, `C33_violated_copy_destroy`, `C33_violated_assign`, `C33_violated_assign_leak`, `C33_violated_pushOwn`. -/
theorem C33_fastSequence_partial (max : Nat) (hmax : 0 < max) (ops : List (SeqOp V)) (cs : Contents V)
    (h : SeqOp.applyAll [] ops = some cs) (hsafe : SafeHistory (FS.step max) (FS.Safe max) World.start ops) :
    ∃ w, run (FS.step max) World.start ops = some w ∧ Faithful FS.size FS.ptr FS.get w cs := by
  obtain ⟨w, e, hw⟩ := run_inv (FS.step_inv hmax) ops _ _ _ (WInv.start _ _) h hsafe
  exact ⟨w, e, hw.faithful (fun _ _ _ ok => ok.size.symm) (fun _ _ _ ok => FS.get_spec ok)⟩

/-- Histories without copies, assignments and self references are safe, whatever the sizes. -/
theorem C33_fastSequence_unshared_partial (max : Nat) (hmax : 0 < max) (ops : List (SeqOp V)) (cs : Contents V)
    (h : SeqOp.applyAll [] ops = some cs)
    (hops : ∀ op ∈ ops, (∀ i, op ≠ .copy i) ∧ (∀ i j, op ≠ .assign i j) ∧ (∀ i k, op ≠ .pushOwn i k)) :
    ∃ w, run (FS.step max) World.start ops = some w ∧ Faithful FS.size FS.ptr FS.get w cs := by
  refine C33_fastSequence_partial max hmax ops cs h ?_
  clear h
  generalize (World.start : World V (FS V)) = w
  induction ops generalizing w with
  | nil => trivial
  | cons op ops ih =>
    refine ⟨?_, fun w' _ => ih (fun op' h' => hops op' (by simp [h'])) w'⟩
    have := hops op (by simp)
    cases op with
    | copy i => exact absurd rfl (this.1 i)
    | assign i j => exact absurd rfl (this.2.1 i j)
    | pushOwn i k => exact absurd rfl (this.2.2 i k)
    | _ => trivial

/-- All sequences stay at a length of at most `max`, and no more is reserved. -/
def SmallHistory (max : Nat) : Contents V → List (SeqOp V) → Prop
  | _, [] => True
  | cs, op :: ops => (∀ i n, op = .reserve i n → n ≤ max) ∧
      ∀ cs', op.apply cs = some cs' → (∀ (i : Nat) (c : List (Option V)), cs'[i]? = some (some c) → c.length ≤ max) ∧ SmallHistory max cs' ops

/-- No object uses the heap. -/
def FS.AllSmall (max : Nat) (w : World V (FS V)) : Prop := ∀ (i : Nat) (s : FS V), w.objs[i]? = some (some s) → s.capacity = max

theorem FS.AllSmall.safe {max : Nat} {w : World V (FS V)} {cs : Contents V} (hw : WInv (FS.Ok max) FS.ptr w cs) (ha : FS.AllSmall max w)
    (op : SeqOp V) : FS.Safe max w op := by
  have hle : ∀ (i : Nat) (s : FS V), w.objs[i]? = some (some s) → s.size ≤ max := by
    intro i s hs
    obtain ⟨c, _, ok⟩ := hw.content hs
    have := ok.le
    rw [ha i s hs] at this
    exact this
  cases op with
  | copy i =>
    intro s hs
    rw [if_neg (by have := hle i s hs; omega), ha i s hs]
  | assign i j =>
    intro _ s o hs ho
    rw [if_neg (by have := hle j o ho; omega), ha i s hs]
  | pushOwn i k =>
    intro s hs
    rw [ha i s hs]
    omega
  | _ => trivial

theorem mem_append_one {S : Type} {l : List (Option S)} {s' : S} {j : Nat} {t : S} (ht : (l ++ [some s'])[j]? = some (some t)) :
    l[j]? = some (some t) ∨ (j = l.length ∧ t = s') := by
  by_cases hj : j < l.length
  · rw [List.getElem?_append_left hj] at ht
    exact Or.inl ht
  · rw [List.getElem?_append_right (by omega)] at ht
    have : j = l.length := by
      by_contra hc
      rw [List.getElem?_eq_none (by simp; omega)] at ht
      exact absurd ht (by simp)
    subst this
    simp at ht
    exact Or.inr ⟨rfl, ht.symm⟩

theorem mem_set {S : Type} {l : List (Option S)} {x : Option S} {i j : Nat} {t : S} (ht : (l.set i x)[j]? = some (some t)) :
    l[j]? = some (some t) ∨ (j = i ∧ x = some t) := by
  by_cases hj : i = j
  · subst hj
    have hi : i < l.length := by
      by_contra hc
      rw [List.getElem?_eq_none (by simp; omega)] at ht
      exact absurd ht (by simp)
    rw [List.getElem?_set_self hi] at ht
    injection ht with ht
    exact Or.inr ⟨rfl, ht⟩
  · rw [List.getElem?_set_ne hj] at ht
    exact Or.inl ht

theorem FS.AllSmall.modify {max : Nat} {w w' : World V (FS V)} (ha : FS.AllSmall max w) {i : Nat} {g : Heap V → FS V → Option (Heap V × FS V)}
    (h : w.modify i g = some w') (hg : ∀ s h' s', w.objs[i]? = some (some s) → g w.heap s = some (h', s') → s'.capacity = max) : FS.AllSmall max w' := by
  unfold World.modify at h
  split at h
  · rename_i s hs
    split at h
    · rename_i h' s' e
      injection h with h
      subst h
      intro j t ht
      rcases mem_set ht with h1 | ⟨_, h1⟩
      · exact ha j t h1
      · injection h1 with h1
        subst h1
        exact hg s h' s' hs e
    · exact absurd h (by simp)
  · exact absurd h (by simp)

theorem FS.AllSmall.step {max : Nat} {w w' : World V (FS V)} {cs cs' : Contents V} (hw : WInv (FS.Ok max) FS.ptr w cs) (ha : FS.AllSmall max w)
    (hw' : WInv (FS.Ok max) FS.ptr w' cs') {op : SeqOp V} (h : FS.step max w op = some w') (hres : ∀ i n, op = .reserve i n → n ≤ max)
    (hsmall : ∀ (i : Nat) (c : List (Option V)), cs'[i]? = some (some c) → c.length ≤ max) : FS.AllSmall max w' := by
  have hle : ∀ (i : Nat) (s : FS V), w.objs[i]? = some (some s) → s.size ≤ max := by
    intro i s hs
    obtain ⟨c, _, ok⟩ := hw.content hs
    have := ok.le
    rw [ha i s hs] at this
    exact this
  have hsz : ∀ (i : Nat) (s : FS V), w'.objs[i]? = some (some s) → s.size ≤ max := by
    intro i s hs
    obtain ⟨c, hc, ok⟩ := hw'.content hs
    rw [← ok.size]
    exact hsmall i c hc
  have hadd : ∀ (r : Option (Heap V × FS V)), w.add r = some w' → (∀ h' s', r = some (h', s') → s'.size ≤ max → s'.capacity = max) → FS.AllSmall max w' := by
    intro r hr hcap
    unfold World.add at hr
    split at hr
    · exact absurd hr (by simp)
    · injection hr with hr
      subst hr
      intro j t ht
      rcases mem_append_one ht with h1 | ⟨_, h1⟩
      · exact ha j t h1
      · subst h1
        exact hcap _ _ rfl (hsz j _ ht)
  have hmod : ∀ (i : Nat) (g : Heap V → FS V → Option (Heap V × FS V)), w.modify i g = some w' →
      (∀ s h' s', w.objs[i]? = some (some s) → g w.heap s = some (h', s') → s'.size ≤ max → s'.capacity = max) → FS.AllSmall max w' := by
    intro i g hg hcap
    unfold World.modify at hg
    split at hg
    · rename_i s hs
      split at hg
      · rename_i h' s' e
        injection hg with hg
        subst hg
        intro j t ht
        rcases mem_set ht with h1 | ⟨_, h1⟩
        · exact ha j t h1
        · injection h1 with h1
          subst h1
          exact hcap s h' s' hs e (hsz j _ ht)
      · exact absurd hg (by simp)
    · exact absurd hg (by simp)
  have hnew : ∀ (n : Nat) (h' : Heap V) (s' : FS V), FS.newSize max w.heap n = some (h', s') → s'.size ≤ max → s'.capacity = max := by
    intro n h' s' e hs'
    unfold FS.newSize at e
    by_cases hn : max < n
    · simp only [if_pos hn, alloc_spec w.heap (vals := []) (Nat.zero_le n), Option.some.injEq, Prod.mk.injEq] at e
      rw [← e.2] at hs'
      exact absurd hs' (by simp only; omega)
    · simp only [if_neg hn, Option.some.injEq, Prod.mk.injEq] at e
      rw [← e.2]
  cases op with
  | new =>
    simp only [FS.step] at h
    exact hadd _ h (fun h' s' e _ => by injection e with e; injection e with _ e; rw [← e]; rfl)
  | newSize n =>
    simp only [FS.step] at h
    exact hadd _ h (fun h' s' e hs' => hnew n h' s' e hs')
  | newFill n v =>
    simp only [FS.step] at h
    refine hadd _ h ?_
    intro h' s' e hs'
    unfold FS.newFill at e
    split at e
    · exact absurd e (by simp)
    · rename_i h1 s1 e1
      split at e
      · exact absurd e (by simp)
      · injection e with e
        injection e with _ e
        subst e
        exact hnew n h1 s1 e1 hs'
  | copy i =>
    simp only [FS.step] at h
    split at h
    · rename_i s hs
      refine hadd _ h ?_
      intro h' s' e hs'
      unfold FS.copy at e
      split at e
      · exact absurd e (by simp)
      · rw [if_neg (by have := hle i s hs; omega)] at e
        split at e
        · exact absurd e (by simp)
        · injection e with e
          injection e with _ e
          rw [← e]
          exact ha i s hs
    · exact absurd h (by simp)
  | destroy i =>
    simp only [FS.step] at h
    split at h
    · split at h
      · injection h with h
        subst h
        intro j t ht
        rcases mem_set ht with h1 | ⟨_, h1⟩
        · exact ha j t h1
        · simp at h1
      · exact absurd h (by simp)
    · exact absurd h (by simp)
  | assign i j =>
    simp only [FS.step] at h
    split at h
    · injection h with h
      exact h ▸ ha
    · split at h
      · rename_i o ho
        refine hmod i _ h ?_
        intro s h' s' hs e hs'
        unfold FS.assign at e
        rw [if_neg (by have := hle j o ho; omega)] at e
        split at e
        · exact absurd e (by simp)
        · split at e
          · exact absurd e (by simp)
          · injection e with e
            injection e with _ e
            rw [← e]
            exact ha i s hs
      · exact absurd h (by simp)
  | push i v =>
    simp only [FS.step] at h
    refine hmod i _ h ?_
    intro s h' s' hs e hs'
    unfold FS.push at e
    by_cases hc : s.capacity = s.size
    · rw [if_pos hc] at e
      split at e
      · exact absurd e (by simp)
      · rename_i h1 s1 e1
        obtain ⟨c, _, ok⟩ := hw.content hs
        have hmz : 0 < max ∨ max = 0 := by omega
        split at e
        · exact absurd e (by simp)
        · injection e with e
          injection e with _ e
          subst e
          have hz : s1.size = s.size := by
            unfold FS.grow at e1
            split at e1
            · exact absurd e1 (by simp)
            · split at e1
              · exact absurd e1 (by simp)
              · split at e1
                · exact absurd e1 (by simp)
                · injection e1 with e1
                  injection e1 with _ e1
                  rw [← e1]
          simp only at hs'
          have := ha i s hs
          omega
    · rw [if_neg hc] at e
      simp only at e
      split at e
      · exact absurd e (by simp)
      · injection e with e
        injection e with _ e
        rw [← e]
        exact ha i s hs
  | pushOwn i k =>
    simp only [FS.step] at h
    refine hmod i _ h ?_
    intro s h' s' hs e hs'
    unfold FS.pushOwn at e
    by_cases hc : s.capacity = s.size
    · rw [if_pos hc] at e
      split at e
      · exact absurd e (by simp)
      · rename_i h1 s1 e1
        split at e
        · exact absurd e (by simp)
        · split at e
          · exact absurd e (by simp)
          · injection e with e
            injection e with _ e
            subst e
            have hz : s1.size = s.size := by
              unfold FS.grow at e1
              split at e1
              · exact absurd e1 (by simp)
              · split at e1
                · exact absurd e1 (by simp)
                · split at e1
                  · exact absurd e1 (by simp)
                  · injection e1 with e1
                    injection e1 with _ e1
                    rw [← e1]
            simp only at hs'
            have := ha i s hs
            omega
    · rw [if_neg hc] at e
      simp only at e
      split at e
      · exact absurd e (by simp)
      · split at e
        · exact absurd e (by simp)
        · injection e with e
          injection e with _ e
          rw [← e]
          exact ha i s hs
  | resize i n =>
    simp only [FS.step] at h
    refine hmod i _ h ?_
    intro s h' s' hs e hs'
    unfold FS.resize at e
    split at e
    · exact absurd e (by simp)
    · rename_i h1 s1 e1
      injection e with e
      injection e with _ e
      subst e
      simp only at hs'
      rw [if_neg (by rw [ha i s hs]; omega)] at e1
      injection e1 with e1
      injection e1 with _ e1
      rw [← e1]
      exact ha i s hs
  | reserve i n =>
    simp only [FS.step] at h
    refine hmod i _ h ?_
    intro s h' s' hs e hs'
    unfold FS.reserve at e
    rw [if_neg (by rw [ha i s hs]; have := hres i n rfl; omega)] at e
    injection e with e
    injection e with _ e
    rw [← e]
    exact ha i s hs
  | clear i =>
    simp only [FS.step] at h
    refine hmod i _ h ?_
    intro s h' s' hs e hs'
    unfold FS.clear at e
    split at e
    · exact absurd e (by simp)
    · injection e with e
      injection e with _ e
      rw [← e]
  | assignRange i vs =>
    simp only [FS.step] at h
    refine hmod i _ h ?_
    intro s h' s' hs e hs'
    unfold FS.assignRange at e
    split at e
    · exact absurd e (by simp)
    · rename_i h1 s1 e1
      split at e
      · exact absurd e (by simp)
      · injection e with e
        injection e with _ e
        subst e
        simp only at hs' ⊢
        unfold FS.resize at e1
        split at e1
        · exact absurd e1 (by simp)
        · rename_i h2 s2 e2
          injection e1 with e1
          injection e1 with _ e1
          subst e1
          simp only at hs' ⊢
          rw [if_neg (by rw [ha i s hs]; omega)] at e2
          injection e2 with e2
          injection e2 with _ e2
          rw [← e2]
          exact ha i s hs
  | set i k v =>
    simp only [FS.step] at h
    refine hmod i _ h ?_
    intro s h' s' hs e hs'
    unfold FS.set at e
    split at e
    · exact absurd e (by simp)
    · injection e with e
      injection e with _ e
      rw [← e]
      exact ha i s hs

/-- Histories in which no sequence ever exceeds MAX_STACK are safe, including all copies, assignments and self references. -/
theorem C33_fastSequence_small_partial (max : Nat) (hmax : 0 < max) (ops : List (SeqOp V)) (cs : Contents V)
    (h : SeqOp.applyAll [] ops = some cs) (hsmall : SmallHistory max [] ops) :
    ∃ w, run (FS.step max) World.start ops = some w ∧ Faithful FS.size FS.ptr FS.get w cs := by
  refine C33_fastSequence_partial max hmax ops cs h ?_
  have key : ∀ (ops : List (SeqOp V)) (w : World V (FS V)) (cs cs' : Contents V), WInv (FS.Ok max) FS.ptr w cs → FS.AllSmall max w →
      SeqOp.applyAll cs ops = some cs' → SmallHistory max cs ops → SafeHistory (FS.step max) (FS.Safe max) w ops := by
    intro ops
    induction ops with
    | nil => intro _ _ _ _ _ _ _; trivial
    | cons op ops ih =>
      intro w cs cs' hw ha h hs
      have hsafe := ha.safe hw op
      refine ⟨hsafe, ?_⟩
      intro w' e
      rw [SeqOp.applyAll] at h
      split at h
      · exact absurd h (by simp)
      · rename_i cs1 h1
        obtain ⟨w1, e1, hw1⟩ := FS.step_inv hmax w cs cs1 op hw h1 hsafe
        rw [e1] at e
        injection e with e
        subst e
        have hs1 := hs.2 cs1 h1
        exact ih w1 cs1 cs' hw1 (ha.step hw hw1 e1 hs.1 hs1.1) h hs1.2
  exact key ops _ _ _ (WInv.start _ _) (by intro i s hs; simp [World.start] at hs) h hsmall

/-! ### BufferVector -/

/-- Calls that BufferVector handles: not the constructor with a value and size 0; no `reserve` beyond the capacity; `resize` and
`assign` of an empty vector that has memory only within its capacity; assignment of a nonempty vector only to a vector whose `data_` has been initialised;
and an entry of the vector itself is appended only while there is room. -/
def BV.Safe (w : World V BV) : SeqOp V → Prop
  | .newFill n _ => n ≠ 0
  | .assign i j => i ≠ j → ∀ s o, w.objs[i]? = some (some s) → w.objs[j]? = some (some o) → s.ptr = .wild → o.size = 0
  | .pushOwn i _ => ∀ s, w.objs[i]? = some (some s) → s.capacity ≠ s.size
  | .resize i n => ∀ s, w.objs[i]? = some (some s) → s.size = 0 → 0 < s.capacity → n ≤ s.capacity
  | .assignRange i vs => ∀ s, w.objs[i]? = some (some s) → s.size = 0 → 0 < s.capacity → vs.length ≤ s.capacity
  | .reserve i n => ∀ s, w.objs[i]? = some (some s) → n ≤ s.capacity
  | _ => True

theorem BV.step_inv (w : World V BV) (cs cs' : Contents V) (op : SeqOp V)
    (hw : WInv BV.Ok BV.ptr w cs) (h : op.apply cs = some cs') (hsafe : BV.Safe w op) :
    ∃ w', BV.step w op = some w' ∧ WInv BV.Ok BV.ptr w' cs' := by
  have hf := BV.framed (V := V)
  cases op with
  | new =>
    injection h with h
    subst h
    exact ⟨_, rfl, hw.add hf (.same notHeap_null notHeap_null) (BV.new_ok _)⟩
  | newSize n =>
    injection h with h
    subst h
    obtain ⟨h', s, e, ok, m⟩ := BV.newSize_spec w.heap n
    exact ⟨_, by simp only [BV.step, World.add, e], hw.add hf m ok⟩
  | newFill n v =>
    injection h with h
    subst h
    obtain ⟨h', s, e, ok, m⟩ := BV.newFill_spec w.heap n v hsafe
    exact ⟨_, by simp only [BV.step, World.add, e], hw.add hf m ok⟩
  | copy i =>
    simp only [SeqOp.apply] at h
    split at h
    · rename_i c hc
      injection h with h
      subst h
      obtain ⟨s, hs, ok⟩ := hw.obj hc
      obtain ⟨h', s', e, ok', m⟩ := BV.copy_spec ok
      exact ⟨_, by simp only [BV.step, World.add, hs, e], hw.add hf m ok'⟩
    · exact absurd h (by simp)
  | destroy i =>
    simp only [SeqOp.apply] at h
    split at h
    · rename_i c hc
      injection h with h
      subst h
      obtain ⟨s, hs, ok⟩ := hw.obj hc
      obtain ⟨h', e, m⟩ := BV.destroy_spec ok
      exact ⟨_, by simp only [BV.step, hs, e], hw.remove hf hs m⟩
    · exact absurd h (by simp)
  | assign i j =>
    simp only [SeqOp.apply] at h
    split at h
    · rename_i d hd
      by_cases hij : i = j
      · subst hij
        obtain ⟨c, c', _, h2, rfl⟩ := modify_const h
        injection h2 with h2
        subst h2
        rw [set_same hd]
        exact ⟨w, by simp [BV.step], hw⟩
      · obtain ⟨o, ho, oko⟩ := hw.obj hd
        obtain ⟨w', e, hw'⟩ := hw.modify hf h (g := fun h s => BV.assign h s o) (by
          intro s c c' hs hc ok hcc
          injection hcc with hcc
          subst hcc
          exact BV.assign_spec ok oko (fun a ha ha' => hij (hw.distinct i j s o a hs ho ha ha')) (hsafe hij s o hs ho))
        exact ⟨w', by simp only [BV.step, if_neg hij, ho, e], hw'⟩
    · exact absurd h (by simp)
  | push i v =>
    simp only [SeqOp.apply] at h
    exact hw.modify hf h (g := fun h s => BV.push h s v) (by
      intro s c c' hs hc ok hcc
      injection hcc with hcc
      subst hcc
      exact BV.push_spec ok v)
  | pushOwn i k =>
    simp only [SeqOp.apply] at h
    refine hw.modify hf h (g := fun h s => BV.pushOwn h s k) ?_
    intro s c c' hs hc ok hcc
    split at hcc
    · rename_i x hx
      injection hcc with hcc
      subst hcc
      exact BV.pushOwn_spec ok k x hx (hsafe s hs)
    · exact absurd hcc (by simp)
  | resize i n =>
    simp only [SeqOp.apply] at h
    refine hw.modify hf h (g := fun h s => BV.resize h s n) ?_
    intro s c c' hs hc ok hcc
    injection hcc with hcc
    subst hcc
    obtain ⟨h', s', a1, a2, a3, _⟩ := BV.resize_spec ok n (hsafe s hs)
    exact ⟨h', s', a1, a2, a3⟩
  | reserve i n =>
    simp only [SeqOp.apply] at h
    refine hw.modify hf h (g := fun h s => BV.reserve h s n) ?_
    intro s c c' hs hc ok hcc
    injection hcc with hcc
    subst hcc
    refine ⟨w.heap, s, ?_, ok, .refl _ _⟩
    have := hsafe s hs
    simp only [BV.reserve, if_neg (by omega : ¬ s.capacity < n)]
  | clear i =>
    simp only [SeqOp.apply] at h
    refine hw.modify hf h (g := BV.clear) ?_
    intro s c c' hs hc ok hcc
    injection hcc with hcc
    subst hcc
    exact BV.clear_spec ok
  | assignRange i vs =>
    simp only [SeqOp.apply] at h
    refine hw.modify hf h (g := fun h s => BV.assignRange h s vs) ?_
    intro s c c' hs hc ok hcc
    injection hcc with hcc
    subst hcc
    exact BV.assignRange_spec ok vs (hsafe s hs)
  | set i k v =>
    simp only [SeqOp.apply] at h
    refine hw.modify hf h (g := fun h s => BV.set h s k v) ?_
    intro s c c' hs hc ok hcc
    split at hcc
    · rename_i hk
      injection hcc with hcc
      subst hcc
      exact BV.set_spec ok k v hk
    · exact absurd hcc (by simp)

/-- C33 for BufferVector, with the restrictions `BV.Safe`.

Missing from the full property: `C33_violated_reserve`, `C33_violated_uninitialised`, `C33_violated_copy_empty`,
`C33_violated_resize_leak`, `C33_violated_fill_leak` and `C33_violated_bufferVector_pushOwn` show what the code does otherwise. -/
theorem C33_bufferVector_partial (ops : List (SeqOp V)) (cs : Contents V)
    (h : SeqOp.applyAll [] ops = some cs) (hsafe : SafeHistory BV.step BV.Safe World.start ops) :
    ∃ w, run BV.step World.start ops = some w ∧ Faithful BV.size BV.ptr BV.get w cs := by
  obtain ⟨w, e, hw⟩ := run_inv BV.step_inv ops _ _ _ (WInv.start _ _) h hsafe
  exact ⟨w, e, hw.faithful (fun _ _ _ ok => ok.size.symm) (fun _ _ _ ok => BV.get_spec ok)⟩

/-- Histories of construction (default, size, nonempty fill), copy construction, destruction, `push_back`, `clear` and element access. -/
theorem C33_bufferVector_simple_partial (ops : List (SeqOp V)) (cs : Contents V) (h : SeqOp.applyAll [] ops = some cs)
    (hops : ∀ op ∈ ops, match op with
      | .newFill n _ => n ≠ 0
      | .assign _ _ => False
      | .pushOwn _ _ => False
      | .resize _ _ => False
      | .reserve _ _ => False
      | .assignRange _ _ => False
      | _ => True) :
    ∃ w, run BV.step World.start ops = some w ∧ Faithful BV.size BV.ptr BV.get w cs := by
  refine C33_bufferVector_partial ops cs h ?_
  clear h
  generalize (World.start : World V BV) = w
  induction ops generalizing w with
  | nil => trivial
  | cons op ops ih =>
    refine ⟨?_, fun w' _ => ih (fun op' h' => hops op' (by simp [h'])) w'⟩
    have := hops op (by simp)
    cases op <;> first | trivial | exact this | exact absurd this (by simp)

/-! ### Witnesses -/

/-- A history that meets the hypotheses of `C33_fastSequence_partial`: it uses the heap, copies and assigns. -/
def goodHistory : List (SeqOp Nat) :=
  [.newFill 3 7, .new, .push 1 1, .push 1 2, .push 1 3, .newSize 4, .assign 0 2, .set 0 3 9, .copy 0, .pushOwn 1 2, .assign 3 3, .destroy 2, .clear 1]

example : SafeHistory (FS.step 2) (FS.Safe 2) World.start goodHistory := by
  simp [goodHistory, SafeHistory, FS.Safe, FS.step, World.start, World.add, World.modify, FS.newFill, FS.newSize, FS.new, alloc, writeFirst,
    FS.push, FS.grow, readFirst, cells, writeAt, FS.assign, delete, FS.set, FS.copy, FS.pushOwn, readAt, FS.destroy, FS.clear, List.replicate]

example : ∃ cs, SeqOp.applyAll [] goodHistory = some cs ∧ cs = [some [none, none, none, some 9], some [], none, some [none, none, none, some 9]] :=
  ⟨_, rfl, rfl⟩

/-- A history of the second kind: everything stays on the stack. -/
example : SmallHistory 5 ([] : Contents Nat) [.newFill 3 7, .copy 0, .push 1 8, .assign 0 1, .pushOwn 0 3, .resize 1 2, .destroy 0] := by
  simp only [SmallHistory, SeqOp.apply, Contents.modify, List.replicate]
  simp
  refine ⟨?_, ?_, ?_, ?_, ?_, ?_, ?_⟩ <;>
  · intro i c h
    have hm := List.mem_of_getElem? h
    simp at hm
    first
    | rcases hm with rfl | rfl <;> simp
    | subst hm; simp

/-- Six calls of `push_back` double the capacity of the stack (5) to 10; the copy has room for 6 entries but believes in a capacity of
10, and `push_back` to the copy writes behind its memory. -/
theorem C33_violated_copy : ∃ ops : List (SeqOp Nat), (∃ cs, SeqOp.applyAll [] ops = some cs) ∧ run (FS.step 5) World.start ops = none ∧
    ops = [.new, .push 0 1, .push 0 2, .push 0 3, .push 0 4, .push 0 5, .push 0 6, .copy 0, .push 1 7] :=
  ⟨_, ⟨_, rfl⟩, rfl, rfl⟩

/-- The copy of a short sequence with a heap block points to its own stack but has a capacity above 5: its destructor calls
`delete[]` for the stack. -/
theorem C33_violated_copy_destroy : ∃ ops : List (SeqOp Nat), (∃ cs, SeqOp.applyAll [] ops = some cs) ∧ run (FS.step 5) World.start ops = none ∧
    ops = [.new, .reserve 0 6, .copy 0, .destroy 1] :=
  ⟨_, ⟨_, rfl⟩, rfl, rfl⟩

/-- Assigning a short sequence to a long one: the block is lost and the destructor calls `delete[]` for the stack. -/
theorem C33_violated_assign : ∃ ops : List (SeqOp Nat), (∃ cs, SeqOp.applyAll [] ops = some cs) ∧ run (FS.step 5) World.start ops = none ∧
    ops = [.newSize 6, .new, .assign 0 1, .destroy 0] :=
  ⟨_, ⟨_, rfl⟩, rfl, rfl⟩

/-- Assigning a long sequence to a short one that has a heap block: that block is never freed. -/
theorem C33_violated_assign_leak : ∃ ops : List (SeqOp Nat), SeqOp.applyAll [] ops = some [none, none] ∧
    (∃ w, run (FS.step 5) World.start ops = some w ∧ ∃ (a : Nat) (b : Block Nat), w.heap[a]? = some (some b)) ∧
    ops = [.new, .reserve 0 6, .newSize 6, .assign 0 1, .destroy 0, .destroy 1] :=
  ⟨_, rfl, ⟨_, rfl, 0, _, rfl⟩, rfl⟩

/-- `s.push_back(s[0])` reads the old array after it has been freed. -/
theorem C33_violated_pushOwn : ∃ ops : List (SeqOp Nat), (∃ cs, SeqOp.applyAll [] ops = some cs) ∧ run (FS.step 5) World.start ops = none ∧
    ops = [.newFill 6 1, .pushOwn 0 0] :=
  ⟨_, ⟨_, rfl⟩, rfl, rfl⟩

/-- A history that meets the hypotheses of `C33_bufferVector_partial`. -/
def goodVectors : List (SeqOp Nat) :=
  [.newFill 3 7, .new, .push 1 1, .push 1 2, .push 1 3, .newSize 4, .assign 0 2, .set 0 3 9, .copy 0, .pushOwn 1 2, .assign 3 3, .resize 1 9,
   .reserve 1 5, .destroy 2, .clear 1, .assignRange 1 [4, 5]]

example : SafeHistory BV.step BV.Safe World.start goodVectors := by
  simp [goodVectors, SafeHistory, BV.Safe, BV.step, World.start, World.add, World.modify, BV.newFill, BV.newSize, BV.new, alloc, writeFirst,
    BV.push, BV.room, BV.grow, BV.fresh, readFirst, cells, writeAt, BV.assign, delete, BV.set, BV.copy, BV.pushOwn, readAt, BV.destroy, BV.clear,
    BV.resize, BV.reserve, BV.assignRange, List.replicate]

example : ∃ cs, SeqOp.applyAll [] goodVectors = some cs ∧ cs = [some [none, none, none, some 9], some [some 4, some 5], none, some [none, none, none, some 9]] :=
  ⟨_, rfl, rfl⟩

/-- `reserve` changes the size. -/
theorem C33_violated_reserve : ∃ ops : List (SeqOp Nat), SeqOp.applyAll [] ops = some [some [some 1]] ∧
    (∃ w s, run BV.step World.start ops = some w ∧ w.objs[0]? = some (some s) ∧ s.size = 8) ∧ ops = [.new, .push 0 1, .reserve 0 8] :=
  ⟨_, rfl, ⟨_, _, rfl, rfl, rfl⟩, rfl⟩

/-- A vector constructed with size 0 has no valid pointer: assigning a nonempty vector frees an arbitrary address. -/
theorem C33_violated_uninitialised : ∃ ops : List (SeqOp Nat), (∃ cs, SeqOp.applyAll [] ops = some cs) ∧ run BV.step World.start ops = none ∧
    ops = [.newSize 0, .newSize 1, .assign 0 1] :=
  ⟨_, ⟨_, rfl⟩, rfl, rfl⟩

/-- So does a copy of an empty vector. -/
theorem C33_violated_copy_empty : ∃ ops : List (SeqOp Nat), (∃ cs, SeqOp.applyAll [] ops = some cs) ∧ run BV.step World.start ops = none ∧
    ops = [.new, .copy 0, .newSize 1, .assign 1 2] :=
  ⟨_, ⟨_, rfl⟩, rfl, rfl⟩

/-- After `clear`, `resize` to a larger size loses the old block. -/
theorem C33_violated_resize_leak : ∃ ops : List (SeqOp Nat), SeqOp.applyAll [] ops = some [none] ∧
    (∃ w, run BV.step World.start ops = some w ∧ ∃ (a : Nat) (b : Block Nat), w.heap[a]? = some (some b)) ∧ ops = [.newSize 2, .clear 0, .resize 0 3, .destroy 0] :=
  ⟨_, rfl, ⟨_, rfl, 0, _, rfl⟩, rfl⟩

/-- The constructor with size 0 and a value allocates a block that is never freed. -/
theorem C33_violated_fill_leak : ∃ ops : List (SeqOp Nat), SeqOp.applyAll [] ops = some [none] ∧
    (∃ w, run BV.step World.start ops = some w ∧ ∃ (a : Nat) (b : Block Nat), w.heap[a]? = some (some b)) ∧ ops = [.newFill 0 1, .destroy 0] :=
  ⟨_, rfl, ⟨_, rfl, 0, _, rfl⟩, rfl⟩

/-- `v.push_back(v[0])` reads freed memory. -/
theorem C33_violated_bufferVector_pushOwn : ∃ ops : List (SeqOp Nat), (∃ cs, SeqOp.applyAll [] ops = some cs) ∧ run BV.step World.start ops = none ∧
    ops = [.newFill 1 1, .pushOwn 0 0] :=
  ⟨_, ⟨_, rfl⟩, rfl, rfl⟩

end Sequences
end OpenGM
