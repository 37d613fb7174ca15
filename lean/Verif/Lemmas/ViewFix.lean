import Verif.Model.ViewFix
import Verif.Lemmas.SubWalker
import Mathlib.Data.List.Nodup
import Mathlib.Data.List.Perm.Subperm
/-
ViewFixVariablesFunction: the look-up table lists the free positions; a call fills the buffer with the full labeling.
-/
namespace OpenGM
open Spec
namespace ViewFix
open FactorOps (Fn)
open Walkers
variable {V : Type}

/-- The positions `d, d+1, …, d+n-1` that are not listed. -/
def freeFrom (ps : List Nat) (d n : Nat) : List Nat := (List.range' d n).filter (fun j => !ps.contains j)

theorem freeFrom_succ (ps : List Nat) (d n : Nat) :
    freeFrom ps d (n + 1) = if d ∈ ps then freeFrom ps (d + 1) n else d :: freeFrom ps (d + 1) n := by
  unfold freeFrom
  rw [List.range'_succ, List.filter_cons]
  simp

theorem freeFrom_tail (p : Nat) (ps : List Nat) (n : Nat) : freeFrom (p :: ps) (p + 1) n = freeFrom ps (p + 1) n := by
  unfold freeFrom
  apply List.filter_congr
  intro j hj
  have := List.mem_range'.mp hj
  simp
  omega

theorem shift_lt (fixed : List (Nat × Nat)) (k : Nat) (h : ∀ p ∈ fixed.map Prod.fst, k < p) : shift fixed k = k := by
  induction fixed with
  | nil => rfl
  | cons e rest ih =>
    obtain ⟨p, l⟩ := e
    have hp := h p (by simp)
    unfold shift
    rw [if_neg (by omega)]
    exact ih (fun q hq => h q (by simp only [List.map_cons, List.mem_cons]; exact Or.inr hq))

theorem shift_spec : ∀ (n d : Nat) (fixed : List (Nat × Nat)), StrictlySorted (fixed.map Prod.fst) →
    (∀ p ∈ fixed.map Prod.fst, d ≤ p) → ∀ (i q : Nat), (freeFrom (fixed.map Prod.fst) d n)[i]? = some q → shift fixed (d + i) = q := by
  intro n
  induction n with
  | zero => intro d fixed _ _ i q h; simp [freeFrom] at h
  | succ n ih =>
    intro d fixed hs hge i q h
    rw [freeFrom_succ] at h
    cases fixed with
    | nil =>
      simp only [List.map_nil, List.not_mem_nil, if_false] at h
      cases i with
      | zero => simpa [shift] using h
      | succ i =>
        have := ih (d + 1) [] (by simp [StrictlySorted]) (by simp) i q (by simpa using h)
        simp only [shift] at this ⊢
        omega
    | cons e rest =>
      obtain ⟨p, l⟩ := e
      simp only [List.map_cons] at h hs hge
      have hs' := List.pairwise_cons.mp hs
      have hp := hge p (by simp)
      by_cases hd : d = p
      · subst hd
        simp only [List.mem_cons, true_or, if_true] at h
        rw [freeFrom_tail] at h
        have := ih (d + 1) rest hs'.2 (fun q hq => by have := hs'.1 q hq; omega) i q h
        unfold shift
        rw [if_pos (by omega), show d + i + 1 = d + 1 + i by omega]
        exact this
      · have hnot : d ∉ p :: rest.map Prod.fst := by
          intro hm
          rcases List.mem_cons.mp hm with h1 | h1
          · exact hd h1
          · have := hs'.1 d h1; omega
        rw [if_neg hnot] at h
        cases i with
        | zero =>
          simp only [List.getElem?_cons_zero, Option.some.injEq] at h
          rw [← h]
          apply shift_lt
          intro r hr
          simp only [List.map_cons, List.mem_cons] at hr
          rcases hr with rfl | h1
          · omega
          · have := hs'.1 r h1; omega
        | succ i =>
          have := ih (d + 1) ((p, l) :: rest) (by simpa using hs) (by
            intro r hr
            simp only [List.map_cons, List.mem_cons] at hr
            rcases hr with rfl | h1
            · omega
            · have := hs'.1 r h1; omega) i q (by simpa using h)
          rw [show d + (i + 1) = d + 1 + i by omega]
          exact this

theorem length_freeFrom (ps : List Nat) (hs : StrictlySorted ps) (n : Nat) (h : ∀ p ∈ ps, p < n) :
    (freeFrom ps 0 n).length = n - ps.length ∧ ps.length ≤ n := by
  have hnd : ps.Nodup := hs.imp (fun h => Nat.ne_of_lt h)
  have hperm : ((List.range n).filter (fun j => ps.contains j)).Perm ps := by
    refine (List.perm_ext_iff_of_nodup (List.Nodup.filter _ List.nodup_range) hnd).mpr ?_
    intro a
    simp only [List.mem_filter, List.mem_range, List.contains_eq_mem, decide_eq_true_eq]
    exact ⟨fun h => h.2, fun ha => ⟨h a ha, ha⟩⟩
  have hlen := hperm.length_eq
  have hsum := List.length_eq_length_filter_add (l := List.range n) (fun j => ps.contains j)
  rw [List.length_range, hlen] at hsum
  unfold freeFrom
  rw [← List.range_eq_range']
  omega

theorem lookUp_eq (fixed : List (Nat × Nat)) (n : Nat) (hs : StrictlySorted (fixed.map Prod.fst)) (h : ∀ p ∈ fixed.map Prod.fst, p < n) :
    (List.range (n - fixed.length)).map (fun ind => shift fixed ind) = freeFrom (fixed.map Prod.fst) 0 n := by
  obtain ⟨h1, h2⟩ := length_freeFrom _ hs n h
  simp only [List.length_map] at h1 h2
  apply List.ext_getElem?
  intro i
  rw [List.getElem?_map]
  by_cases hi : i < n - fixed.length
  · rw [List.getElem?_range hi, Option.map_some]
    have hi' : i < (freeFrom (fixed.map Prod.fst) 0 n).length := by rw [h1]; exact hi
    rw [List.getElem?_eq_getElem hi']
    congr 1
    have := shift_spec n 0 fixed hs (by simp) i _ (List.getElem?_eq_getElem hi')
    rwa [Nat.zero_add] at this
  · rw [List.getElem?_eq_none (by simp; omega), List.getElem?_eq_none (by omega)]
    rfl

/-- The entries of `c` at the free positions. -/
theorem dropPositions_eq (ps : List Nat) : ∀ (c : List Nat) (d : Nat),
    ((c.zipIdx d).filter (fun e => !ps.contains e.2)).map (fun e => e.1) = (freeFrom ps d c.length).map (fun j => c.getD (j - d) 0)
  | [], d => by simp [freeFrom]
  | x :: c, d => by
    have ih := dropPositions_eq ps c (d + 1)
    have htail : (freeFrom ps (d + 1) c.length).map (fun j => c.getD (j - (d + 1)) 0) =
        (freeFrom ps (d + 1) c.length).map (fun j => (x :: c).getD (j - d) 0) := by
      apply List.map_congr_left
      intro j hj
      have := List.mem_range'.mp (List.mem_of_mem_filter hj)
      rw [show j - d = (j - (d + 1)) + 1 by omega]
      simp
    rw [List.zipIdx_cons, List.length_cons, freeFrom_succ]
    by_cases hd : d ∈ ps
    · rw [if_pos hd, List.filter_cons_of_neg (by simpa using hd), ih, htail]
    · rw [if_neg hd, List.filter_cons_of_pos (by simpa using hd), List.map_cons, List.map_cons, ih, htail]
      simp

theorem fillFree_spec (c : List Nat) (rest : List Nat) : ∀ (look : List Nat) (buf : List Nat), buf.length = c.length →
    (∀ j ∈ look, j < c.length) →
    ∃ buf', fillFree look (look.map (fun j => c.getD j 0) ++ rest) buf = some buf' ∧ buf'.length = c.length ∧
      ∀ j, (j ∈ look ∨ buf[j]? = c[j]?) → buf'[j]? = c[j]?
  | [], buf, hl, _ => ⟨buf, rfl, hl, by intro j h; simpa using h⟩
  | p :: look, buf, hl, h => by
    have hp := h p (by simp)
    obtain ⟨buf', h1, h2, h3⟩ := fillFree_spec c rest look (buf.set p (c.getD p 0)) (by simpa using hl) (fun j hj => h j (by simp [hj]))
    refine ⟨buf', ?_, h2, ?_⟩
    · simp only [List.map_cons, List.cons_append, fillFree]
      rw [setAt_of_lt _ (by omega)]
      exact h1
    · intro j hj
      apply h3
      by_cases hjp : j = p
      · subst hjp
        right
        rw [List.getElem?_set_self (by omega), List.getElem?_eq_getElem hp]
        simp [List.getD_eq_getElem?_getD, hp]
      · rcases hj with hj | hj
        · rcases List.mem_cons.mp hj with h | h
          · exact absurd h hjp
          · exact Or.inl h
        · right
          rw [List.getElem?_set_ne (Ne.symm hjp)]
          exact hj

theorem fillFixed_spec (c : List Nat) : ∀ (fixed : List (Nat × Nat)) (buf : List Nat), buf.length = c.length →
    (∀ p l : Nat, (p, l) ∈ fixed → c[p]? = some l) → (∀ j, j < c.length → j ∈ fixed.map Prod.fst ∨ buf[j]? = c[j]?) →
    fillFixed fixed buf = some c
  | [], buf, hl, _, h => by
    simp only [fillFixed, Option.some.injEq]
    apply List.ext_getElem?
    intro j
    by_cases hj : j < c.length
    · rcases h j hj with h | h
      · simp at h
      · exact h
    · rw [List.getElem?_eq_none (by omega), List.getElem?_eq_none (by omega)]
  | (p, l) :: fixed, buf, hl, hc, h => by
    have hp := hc p l (by simp)
    have hlt : p < c.length := (List.getElem?_eq_some_iff.mp hp).1
    unfold fillFixed
    rw [setAt_of_lt _ (by omega)]
    apply fillFixed_spec c fixed _ (by simpa using hl) (fun q m hm => hc q m (by simp [hm]))
    intro j hj
    by_cases hjp : j = p
    · subst hjp
      right
      rw [List.getElem?_set_self (by omega), hp]
    · rcases h j hj with h | h
      · simp only [List.map_cons, List.mem_cons] at h
        rcases h with h | h
        · exact absurd h hjp
        · exact Or.inl h
      · right
        rw [List.getElem?_set_ne (Ne.symm hjp)]
        exact h

theorem mem_freeFrom (ps : List Nat) (n j : Nat) : j ∈ freeFrom ps 0 n ↔ j < n ∧ j ∉ ps := by
  unfold freeFrom
  rw [List.mem_filter, ← List.range_eq_range', List.mem_range]
  simp

theorem call_spec {F : Fn V} {fixed : List (Nat × Nat)} {v : View V} (hv : construct F fixed = some v)
    (hs : StrictlySorted (fixed.map Prod.fst)) (hr : ∀ p ∈ fixed.map Prod.fst, p < F.shape.length)
    (c rest buf : List Nat) (hb : buf.length = F.shape.length) (hc : c.length = F.shape.length)
    (hf : ∀ p l : Nat, (p, l) ∈ fixed → c[p]? = some l) :
    call v buf (dropPositions (fixed.map Prod.fst) c ++ rest) = (F.eval c).map (fun x => (x, c)) := by
  unfold construct at hv
  split at hv
  case isFalse => simp at hv
  simp only [Option.some.injEq] at hv
  subst hv
  have hlook := lookUp_eq fixed F.shape.length hs hr
  have hd : dropPositions (fixed.map Prod.fst) c = (freeFrom (fixed.map Prod.fst) 0 c.length).map (fun j => c.getD j 0) :=
    dropPositions_eq (fixed.map Prod.fst) c 0
  unfold call
  simp only
  rw [hlook, hd, hc]
  obtain ⟨b1, h1, h2, h3⟩ := fillFree_spec c rest (freeFrom (fixed.map Prod.fst) 0 F.shape.length) buf (by omega)
    (fun j hj => by rw [hc]; exact ((mem_freeFrom _ _ _).mp hj).1)
  rw [h1]
  simp only
  rw [fillFixed_spec c fixed b1 h2 hf ?_]
  intro j hj
  by_cases hm : j ∈ fixed.map Prod.fst
  · exact Or.inl hm
  · right
    exact h3 j (Or.inl ((mem_freeFrom _ _ _).mpr ⟨by omega, hm⟩))

theorem shapeAt_spec {F : Fn V} {fixed : List (Nat × Nat)} {v : View V} (hv : construct F fixed = some v)
    (hs : StrictlySorted (fixed.map Prod.fst)) (hr : ∀ p ∈ fixed.map Prod.fst, p < F.shape.length) (i : Nat) (hi : i < dimension v) :
    shapeAt v i = (dropPositions (fixed.map Prod.fst) F.shape)[i]? := by
  unfold construct at hv
  split at hv
  case isFalse => simp at hv
  simp only [Option.some.injEq] at hv
  subst hv
  obtain ⟨h1, h2⟩ := length_freeFrom _ hs F.shape.length hr
  simp only [List.length_map] at h1 h2
  have hd : dropPositions (fixed.map Prod.fst) F.shape = (freeFrom (fixed.map Prod.fst) 0 F.shape.length).map (fun j => F.shape.getD j 0) :=
    dropPositions_eq (fixed.map Prod.fst) F.shape 0
  simp only [dimension] at hi
  have hi' : i < (freeFrom (fixed.map Prod.fst) 0 F.shape.length).length := by rw [h1]; exact hi
  have := shift_spec F.shape.length 0 fixed hs (by simp) i _ (List.getElem?_eq_getElem hi')
  rw [Nat.zero_add] at this
  rw [hd, List.getElem?_map, List.getElem?_eq_getElem hi', shapeAt, this, Option.map_some]
  have hlt := ((mem_freeFrom (fixed.map Prod.fst) F.shape.length _).mp (List.getElem_mem hi')).1
  rw [List.getElem?_eq_getElem hlt]
  simp [List.getD_eq_getElem?_getD, hlt]

theorem prod_dropPositions : ∀ (fixed : List (Nat × Nat)) (shape : List Nat) (d s : Nat), StrictlySorted (fixed.map Prod.fst) →
    (∀ p ∈ fixed.map Prod.fst, d ≤ p ∧ p < d + shape.length) → (∀ n ∈ shape, 0 < n) →
    ∀ full : List Nat, full.drop d = shape → 
    sizeLoop full fixed (s * shape.prod) = some (s * (((shape.zipIdx d).filter (fun e => !(fixed.map Prod.fst).contains e.2)).map (fun e => e.1)).prod) := by
  intro fixed shape
  induction shape generalizing fixed with
  | nil =>
    intro d s hs hr hp full hfull
    cases fixed with
    | nil => simp [sizeLoop]
    | cons e rest => have := hr e.1 (by simp); simp at this; omega
  | cons n shape ih =>
    intro d s hs hr hp full hfull
    have hfull' : full.drop (d + 1) = shape := by
      rw [← List.drop_drop, hfull]; rfl
    have hfd : full[d]? = some n := by
      have := congrArg (fun l => l[0]?) hfull
      simpa using this
    by_cases hd : d ∈ fixed.map Prod.fst
    · cases fixed with
      | nil => simp at hd
      | cons e rest =>
        obtain ⟨p, l⟩ := e
        have hs' := List.pairwise_cons.mp hs
        have hpd : p = d := by
          rcases List.mem_cons.mp hd with h | h
          · exact h.symm
          · have h1 := hs'.1 d h
            have h2 := (hr p (by simp)).1
            simp only at h1
            omega
        subst hpd
        have hr' : ∀ q ∈ rest.map Prod.fst, p + 1 ≤ q ∧ q < p + 1 + shape.length := by
          intro q hq
          have h1 := hs'.1 q hq
          have h2 := hr q (by simp only [List.map_cons, List.mem_cons]; exact Or.inr hq)
          simp only [List.length_cons] at h2
          simp only at h1
          omega
        have h := ih rest (p + 1) s hs'.2 hr' (fun m hm => hp m (by simp [hm])) full hfull'
        have hn := hp n (by simp)
        unfold sizeLoop
        rw [hfd]
        simp only
        rw [if_neg (by omega), List.prod_cons, show s * (n * shape.prod) = (s * shape.prod) * n by
          rw [Nat.mul_comm n, Nat.mul_assoc], Nat.mul_div_cancel _ hn, h]
        congr 2
        rw [List.zipIdx_cons, List.filter_cons_of_neg (by simp)]
        congr 2
        apply List.filter_congr
        intro e he
        have := List.mem_zipIdx he
        have hne : e.2 ≠ p := by omega
        simp [hne]
    · have h := ih fixed (d + 1) (s * n) hs (by
        intro q hq
        have h1 := hr q hq
        simp only [List.length_cons] at h1
        have : q ≠ d := fun h => hd (h ▸ hq)
        omega) (fun m hm => hp m (by simp [hm])) full hfull'
      rw [List.zipIdx_cons, List.filter_cons_of_pos (by simpa using hd), List.map_cons, List.prod_cons, List.prod_cons,
        ← Nat.mul_assoc, ← Nat.mul_assoc]
      exact h

end ViewFix
end OpenGM
