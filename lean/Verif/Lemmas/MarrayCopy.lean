import Verif.Lemmas.MarrayIter
/-
Copying a view into another one.
-/
namespace OpenGM
open Spec Walkers
namespace Marray
open Geometry

/-- Perform the assignments `mem[d] = src[s]` for the listed pairs `(d, s)`. -/
def applyWrites {V : Type} (src : List V) : List (Nat × Nat) → List V → Option (List V)
  | [], mem => some mem
  | (d, s) :: ws, mem =>
    match src[s]? with
    | some x => (setAt mem d x).bind (applyWrites src ws)
    | none => none

theorem applyWrites_append {V : Type} (src : List V) : ∀ (a b : List (Nat × Nat)) (mem : List V),
    applyWrites src (a ++ b) mem = (applyWrites src a mem).bind (applyWrites src b)
  | [], b, mem => rfl
  | (d, s) :: a, b, mem => by
    rw [List.cons_append, applyWrites, applyWrites]
    cases src[s]? with
    | none => rfl
    | some x =>
      simp only
      cases setAt mem d x with
      | none => rfl
      | some m => simp only [Option.bind_some]; exact applyWrites_append src a b m

theorem applyWrites_spec {V : Type} (src : List V) : ∀ (ws : List (Nat × Nat)) (mem : List V),
    (∀ w ∈ ws, w.1 < mem.length ∧ w.2 < src.length) → (ws.map (fun w => w.1)).Nodup →
    ∃ mem', applyWrites src ws mem = some mem' ∧ mem'.length = mem.length ∧ (∀ w ∈ ws, mem'[w.1]? = src[w.2]?) ∧
      ∀ k, k ∉ ws.map (fun w => w.1) → mem'[k]? = mem[k]?
  | [], mem, _, _ => ⟨mem, rfl, rfl, by simp, fun _ _ => rfl⟩
  | (d, s) :: ws, mem, h1, h2 => by
    obtain ⟨hd, hs⟩ := h1 (d, s) (by simp)
    simp only at hd hs
    rw [List.map_cons, List.nodup_cons] at h2
    obtain ⟨mem', h3, h4, h5, h6⟩ := applyWrites_spec src ws (mem.set d src[s])
      (fun w hw => by rw [List.length_set]; exact h1 w (List.mem_cons_of_mem _ hw)) h2.2
    refine ⟨mem', ?_, ?_, ?_, ?_⟩
    · rw [applyWrites, List.getElem?_eq_getElem hs]
      simp only
      rw [setAt_of_lt _ hd, Option.bind_some, h3]
    · rw [h4, List.length_set]
    · intro w hw
      rcases List.mem_cons.mp hw with rfl | hw
      · simp only
        rw [h6 d h2.1, List.getElem?_set_self hd, List.getElem?_eq_getElem hs]
      · exact h5 w hw
    · intro k hk
      rw [List.map_cons, List.mem_cons, not_or] at hk
      rw [h6 k hk.2, List.getElem?_set_ne (Ne.symm hk.1)]

theorem memcpyLoop_eq {V : Type} (src : List V) (q p : Nat) (mem : List V) : ∀ n : Nat,
    memcpyLoop src q p n mem = applyWrites src ((List.range n).map (fun k => (p + k, q + k))) mem
  | 0 => rfl
  | n + 1 => by
    rw [memcpyLoop, memcpyLoop_eq src q p mem n, List.range_succ, List.map_append, applyWrites_append]
    congr 1
    funext m
    simp only [List.map_cons, List.map_nil, applyWrites]
    cases src[q + n]? with
    | none => rfl
    | some x =>
      simp only
      cases setAt m (p + n) x <;> rfl

/-- Pairs of target and source position for the nested loops. -/
def nestWrites : List (Nat × Nat × Nat) → Nat → Nat → List (Nat × Nat)
  | [], p1, p2 => [(p1, p2)]
  | (n, s1, s2) :: rest, p1, p2 => (List.range n).flatMap (fun k => nestWrites rest (p1 + s1 * k) (p2 + s2 * k))

theorem iter_nest {V : Type} (src : List V) (rest : List (Nat × Nat × Nat)) (s1 s2 : Nat)
    (ih : ∀ p1 p2 mem, copyNest src rest p1 p2 mem = applyWrites src (nestWrites rest p1 p2) mem) : ∀ (n p1 p2 : Nat) (mem : List V),
    (iter (fun (st : Nat × Nat × List V) =>
        (copyNest src rest st.1 st.2.1 st.2.2).map (fun mem => (st.1 + s1, st.2.1 + s2, mem))) n (p1, p2, mem)).map
      (fun st => st.2.2) =
      applyWrites src ((List.range n).flatMap (fun k => nestWrites rest (p1 + s1 * k) (p2 + s2 * k))) mem
  | 0, _, _, _ => rfl
  | n + 1, p1, p2, mem => by
    rw [iter, List.range_succ_eq_map, List.flatMap_cons, applyWrites_append]
    simp only [Nat.mul_zero, Nat.add_zero]
    rw [ih]
    cases hw : applyWrites src (nestWrites rest p1 p2) mem with
    | none => rfl
    | some m =>
      simp only [Option.map_some, Option.bind_some]
      rw [iter_nest src rest s1 s2 ih n (p1 + s1) (p2 + s2) m]
      congr 1
      rw [List.flatMap_map]
      have e : ∀ k : Nat, p1 + s1 + s1 * k = p1 + s1 * (k + 1) ∧ p2 + s2 + s2 * k = p2 + s2 * (k + 1) := by
        intro k
        constructor <;> ring
      simp only [(e _).1, (e _).2]

theorem copyNest_eq {V : Type} (src : List V) : ∀ (l : List (Nat × Nat × Nat)) (p1 p2 : Nat) (mem : List V),
    copyNest src l p1 p2 mem = applyWrites src (nestWrites l p1 p2) mem
  | [], p1, p2, mem => by
    rw [copyNest, nestWrites, applyWrites]
    cases src[p2]? with
    | none => rfl
    | some x => simp only; cases setAt mem p1 x <;> rfl
  | (n, s1, s2) :: rest, p1, p2, mem => by
    rw [copyNest, nestWrites]
    exact iter_nest src rest s1 s2 (copyNest_eq src rest) n p1 p2 mem

theorem nestWrites_eq : ∀ (l : List (Nat × Nat × Nat)) (p1 p2 : Nat),
    nestWrites l p1 p2 = (allTuplesLast (l.map (fun e => e.1))).map
      (fun c => (p1 + dot (l.map (fun e => e.2.1)) c, p2 + dot (l.map (fun e => e.2.2)) c))
  | [], p1, p2 => by simp [nestWrites, allTuplesLast, dot]
  | (n, s1, s2) :: rest, p1, p2 => by
    rw [nestWrites]
    simp only [List.map_cons, allTuplesLast, List.map_flatMap]
    congr 1
    funext k
    rw [nestWrites_eq rest, List.map_map]
    apply List.map_congr_left
    intro c _
    simp only [Function.comp_apply, List.map_cons, dot]
    rw [Nat.mul_comm s1 k, Nat.mul_comm s2 k]
    simp only [Nat.add_assoc]

/-- The pairs of target and source position for copying `from_` to `to`. -/
def viewWrites (from_ to_ : View) (l : List (List Nat)) : List (Nat × Nat) := l.map (fun c => (to_.addr c, from_.addr c))

theorem zip_maps : ∀ (s a b : List Nat), a.length = s.length → b.length = s.length →
    ((s.zip (a.zip b)).map (fun e => e.1) = s) ∧ ((s.zip (a.zip b)).map (fun e => e.2.1) = a) ∧
      ((s.zip (a.zip b)).map (fun e => e.2.2) = b)
  | [], [], [], _, _ => by simp
  | [], _ :: _, _, h, _ => by simp at h
  | [], _, _ :: _, _, h => by simp at h
  | _ :: _, [], _, h, _ => by simp at h
  | _ :: _, _, [], _, h => by simp at h
  | x :: s, y :: a, z :: b, h1, h2 => by
    obtain ⟨e1, e2, e3⟩ := zip_maps s a b (by simpa using h1) (by simpa using h2)
    simp [e1, e2, e3]

theorem nest_viewWrites (from_ to_ : View) (hf : from_.geometry.Inv) (ht : to_.geometry.Inv)
    (hs : to_.geometry.shape = from_.geometry.shape) :
    nestWrites ((to_.geometry.shape.zip (to_.geometry.strides.zip from_.geometry.strides)).reverse) to_.base from_.base =
      viewWrites from_ to_ (allTuples to_.geometry.shape) := by
  obtain ⟨e1, e2, e3⟩ := zip_maps to_.geometry.shape to_.geometry.strides from_.geometry.strides ht.length (by rw [hf.length, hs])
  rw [nestWrites_eq, List.map_reverse, List.map_reverse, List.map_reverse, e1, e2, e3, allTuplesLast_eq, List.reverse_reverse, List.map_map]
  unfold viewWrites
  apply List.map_congr_left
  intro c hc
  have hin := (mem_allTuples _ _).mp hc
  have hl := inShape_length hin
  simp only [Function.comp_apply, View.addr]
  rw [dot_reverse _ _ (by rw [ht.length, hl]), dot_reverse _ _ (by rw [hf.length, hl, hs])]

theorem iterCopy_eq {V : Type} (src : List V) (from_ to_ : View) (hf : from_.geometry.Inv) (ht : to_.geometry.Inv)
    (hdf : from_.geometry.isSimple = true ∨ from_.geometry.shape ≠ []) (hdt : to_.geometry.isSimple = true ∨ to_.geometry.shape ≠ [])
    (hsize : to_.geometry.size = from_.geometry.size) :
    ∀ (n k : Nat) (i j : Iter) (mem : List V) (cf ct : List (List Nat)), Iter.At from_.geometry k i → Iter.At to_.geometry k j →
      k + n = from_.geometry.size → cf = (scan from_.geometry.order from_.geometry.shape).drop k →
      ct = (scan to_.geometry.order to_.geometry.shape).drop k → 0 < n →
      iterCopy src from_ to_ n i j mem = applyWrites src (List.zipWith (fun c c' => (to_.addr c', from_.addr c)) cf ct) mem
  | 0, _, _, _, _, _, _, _, _, _, _, _, h => by omega
  | n + 1, k, i, j, mem, cf, ct, hi, hj, hk, hcf, hct, _ => by
    obtain ⟨c, hc⟩ := Iter.scan_some hf (i := k) (by omega)
    obtain ⟨c', hc'⟩ := Iter.scan_some ht (i := k) (by omega)
    have hd1 : cf = c :: (scan from_.geometry.order from_.geometry.shape).drop (k + 1) := by
      rw [hcf]
      have hl : k < (scan from_.geometry.order from_.geometry.shape).length := by
        by_contra hx; rw [List.getElem?_eq_none (by omega)] at hc; simp at hc
      rw [List.getElem?_eq_getElem hl] at hc
      injection hc with hc
      rw [List.drop_eq_getElem_cons hl, hc]
    have hd2 : ct = c' :: (scan to_.geometry.order to_.geometry.shape).drop (k + 1) := by
      rw [hct]
      have hl : k < (scan to_.geometry.order to_.geometry.shape).length := by
        by_contra hx; rw [List.getElem?_eq_none (by omega)] at hc'; simp at hc'
      rw [List.getElem?_eq_getElem hl] at hc'
      injection hc' with hc'
      rw [List.drop_eq_getElem_cons hl, hc']
    rw [iterCopy, hi.deref src from_.base hc, hd1, hd2, List.zipWith_cons_cons, applyWrites]
    have hpj : to_.base + j.pointer = to_.addr c' := by
      obtain ⟨_, c'', h1, h2, _⟩ := hj
      rw [hc'] at h1
      injection h1 with h1
      subst h1
      rw [h2]; rfl
    have hvf : (View.mk from_.base from_.geometry) = from_ := rfl
    rw [hvf, hpj]
    cases src[from_.addr c]? with
    | none => rfl
    | some x =>
      simp only
      cases hset : setAt mem (to_.addr c') x with
      | none => simp
      | some m =>
        by_cases hn : n = 0
        · subst hn
          obtain ⟨i', hi', _⟩ := Iter.next_last hf hi (by omega) hdf
          obtain ⟨j', hj', _⟩ := Iter.next_last ht hj (by omega) hdt
          rw [hi', hj']
          simp only [Option.bind_some, iterCopy]
          rw [List.drop_eq_nil_of_le (by rw [length_scan, ← hf.size]; omega)]
          rfl
        · obtain ⟨i', hi', hai⟩ := Iter.next_spec hf hi (by omega)
          obtain ⟨j', hj', haj⟩ := Iter.next_spec ht hj (by omega)
          rw [hi', hj']
          simp only [Option.bind_some]
          exact iterCopy_eq src from_ to_ hf ht hdf hdt hsize n (k + 1) i' j' m _ _ hai haj (by omega) rfl rfl (by omega)

theorem zipWith_self_map {α β : Type} (f : α → α → β) : ∀ l : List α, List.zipWith f l l = l.map (fun x => f x x)
  | [] => rfl
  | x :: l => by simp [zipWith_self_map f l]

/-- Copying a view performs one assignment per coordinate tuple. -/
theorem copyView_writes {V : Type} (src mem : List V) (from_ to_ : View) (hf : from_.geometry.Inv) (ht : to_.geometry.Inv)
    (hs : to_.geometry.shape = from_.geometry.shape) (ho : to_.geometry.order = from_.geometry.order)
    (hpos : 0 < from_.geometry.size)
    (hd : (from_.geometry.isSimple = true ∧ to_.geometry.isSimple = true) ∨ from_.geometry.shape ≠ []) :
    ∃ l : List (List Nat), l.Nodup ∧ (∀ c, c ∈ l ↔ InShape to_.geometry.shape c) ∧
      copyView src from_ mem to_ = applyWrites src (viewWrites from_ to_ l) mem := by
  have hsize : to_.geometry.size = from_.geometry.size := by rw [ht.size, hf.size, hs]
  have hscan : ∀ (o : Order) (s : List Nat), (scan o s).Nodup ∧ ∀ c, c ∈ scan o s ↔ InShape s c := by
    intro o s
    cases o with
    | lastMajor => exact ⟨nodup_allTuples s, mem_allTuples s⟩
    | firstMajor =>
      simp only [scan, allTuplesLast_eq]
      refine ⟨(nodup_allTuples _).map List.reverse_injective, ?_⟩
      intro c
      simp only [List.mem_map, mem_allTuples]
      constructor
      · rintro ⟨d, hd, rfl⟩
        have := inShape_reverse hd
        rwa [List.reverse_reverse] at this
      · intro h
        exact ⟨c.reverse, inShape_reverse h, List.reverse_reverse c⟩
  unfold copyView
  by_cases h1 : from_.geometry.order = to_.geometry.order ∧ from_.geometry.isSimple = true ∧ to_.geometry.isSimple = true
  · rw [if_pos h1]
    refine ⟨scan to_.geometry.order to_.geometry.shape, (hscan _ _).1, (hscan _ _).2, ?_⟩
    rw [memcpyLoop_eq]
    congr 1
    unfold viewWrites
    apply List.ext_getElem?
    intro k
    rw [List.getElem?_map, List.getElem?_map]
    by_cases hk : k < from_.geometry.size
    · obtain ⟨c, hc⟩ := Iter.scan_some ht (i := k) (by omega)
      rw [hc, List.getElem?_range hk]
      simp only [Option.map_some, View.addr]
      rw [Iter.simple_dot ht h1.2.2 hc, Iter.simple_dot hf h1.2.1 (by rw [← ho, ← hs]; exact hc)]
    · rw [List.getElem?_eq_none (by simpa using hk), List.getElem?_eq_none (by rw [length_scan, ← ht.size]; omega)]
      rfl
  · rw [if_neg h1]
    have hne : from_.geometry.shape ≠ [] := by
      rcases hd with hd | hd
      · exact absurd ⟨ho.symm, hd.1, hd.2⟩ h1
      · exact hd
    by_cases h2 : 1 ≤ from_.geometry.shape.length ∧ from_.geometry.shape.length ≤ 10
    · rw [if_pos h2]
      refine ⟨allTuples to_.geometry.shape, nodup_allTuples _, mem_allTuples _, ?_⟩
      rw [copyNest_eq, nest_viewWrites from_ to_ hf ht hs]
    · rw [if_neg h2]
      obtain ⟨i, hi, hai⟩ := Iter.make_spec hf (Or.inr hne) (i := 0) hpos
      obtain ⟨j, hj, haj⟩ := Iter.make_spec ht (Or.inr (by rw [hs]; exact hne)) (i := 0) (by omega)
      rw [hi, hj]
      refine ⟨scan to_.geometry.order to_.geometry.shape, (hscan _ _).1, (hscan _ _).2, ?_⟩
      simp only
      rw [iterCopy_eq src from_ to_ hf ht (Or.inr hne) (Or.inr (by rw [hs]; exact hne)) hsize from_.geometry.size 0 i j mem _ _ hai haj
        (by omega) rfl rfl hpos]
      rw [List.drop_zero, List.drop_zero, ho, hs, zipWith_self_map]
      rfl

theorem copyView_spec {V : Type} (src mem : List V) (from_ to_ : View) (hf : from_.geometry.Inv) (ht : to_.geometry.Inv)
    (hs : to_.geometry.shape = from_.geometry.shape) (ho : to_.geometry.order = from_.geometry.order)
    (hpos : 0 < from_.geometry.size)
    (hd : (from_.geometry.isSimple = true ∧ to_.geometry.isSimple = true) ∨ from_.geometry.shape ≠ [])
    (hbf : ∀ c, InShape from_.geometry.shape c → from_.addr c < src.length)
    (hbt : ∀ c, InShape to_.geometry.shape c → to_.addr c < mem.length)
    (hinj : ∀ c c', InShape to_.geometry.shape c → InShape to_.geometry.shape c' → to_.addr c = to_.addr c' → c = c') :
    ∃ mem', copyView src from_ mem to_ = some mem' ∧ mem'.length = mem.length ∧
      (∀ c, InShape to_.geometry.shape c → mem'[to_.addr c]? = src[from_.addr c]?) ∧
      ∀ k, (∀ c, InShape to_.geometry.shape c → to_.addr c ≠ k) → mem'[k]? = mem[k]? := by
  obtain ⟨l, h1, h2, h3⟩ := copyView_writes src mem from_ to_ hf ht hs ho hpos hd
  obtain ⟨mem', h4, h5, h6, h7⟩ := applyWrites_spec src (viewWrites from_ to_ l) mem
    (by
      intro w hw
      obtain ⟨c, hc, rfl⟩ := List.mem_map.mp hw
      have := (h2 c).mp hc
      exact ⟨hbt c this, hbf c (by rw [← hs]; exact this)⟩)
    (by
      unfold viewWrites
      rw [List.map_map]
      apply List.Nodup.map_on _ h1
      intro a ha b hb hab
      exact hinj a b ((h2 a).mp ha) ((h2 b).mp hb) hab)
  refine ⟨mem', by rw [h3, h4], h5, ?_, ?_⟩
  · intro c hc
    have : (to_.addr c, from_.addr c) ∈ viewWrites from_ to_ l := List.mem_map.mpr ⟨c, (h2 c).mpr hc, rfl⟩
    exact h6 _ this
  · intro k hk
    apply h7
    intro hm
    obtain ⟨w, hw, rfl⟩ := List.mem_map.mp hm
    obtain ⟨c, hc, rfl⟩ := List.mem_map.mp hw
    exact hk c ((h2 c).mp hc) rfl

end Marray
end OpenGM
