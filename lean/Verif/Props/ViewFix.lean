import Verif.Lemmas.ViewFix
import Verif.Props.Walkers
/-
C27: ViewFixVariablesFunction evaluates the restricted factor.
-/
namespace OpenGM
open Spec
namespace ViewFix
open Walkers
variable {V : Type}

/-- A buffer that some sequence of calls may have left behind. -/
inductive ReachableBuffer (v : View V) : List Nat → Prop
  | initial : ReachableBuffer v (initialBuffer v.factor)
  | call {buf labels buf' : List Nat} {x : V} : ReachableBuffer v buf → call v buf labels = some (x, buf') → ReachableBuffer v buf'

theorem fillFree_length : ∀ (look labels buf b : List Nat), fillFree look labels buf = some b → b.length = buf.length
  | [], _, buf, b, h => by simp [fillFree] at h; rw [h]
  | _ :: _, [], _, _, h => by simp [fillFree] at h
  | p :: look, l :: labels, buf, b, h => by
    unfold fillFree at h
    cases hs : setAt buf p l with
    | none => simp [hs] at h
    | some buf' =>
      simp only [hs] at h
      have h1 := (setAt_eq_some.mp hs).2
      rw [fillFree_length look labels buf' b h, h1, List.length_set]

theorem fillFixed_length : ∀ (fixed : List (Nat × Nat)) (buf b : List Nat), fillFixed fixed buf = some b → b.length = buf.length
  | [], buf, b, h => by simp [fillFixed] at h; rw [h]
  | (p, l) :: fixed, buf, b, h => by
    unfold fillFixed at h
    cases hs : setAt buf p l with
    | none => simp [hs] at h
    | some buf' =>
      simp only [hs] at h
      have h1 := (setAt_eq_some.mp hs).2
      rw [fillFixed_length fixed buf' b h, h1, List.length_set]

theorem ReachableBuffer.length {v : View V} {buf : List Nat} (h : ReachableBuffer v buf) : buf.length = v.factor.shape.length := by
  induction h with
  | initial => simp [initialBuffer]
  | call _ hc ih =>
    unfold ViewFix.call at hc
    split at hc
    case h_1 => simp at hc
    case h_2 b1 h1 =>
    split at hc
    case h_1 => simp at hc
    case h_2 b2 h2 =>
    simp only [Option.map_eq_some_iff, Prod.mk.injEq] at hc
    obtain ⟨_, _, _, rfl⟩ := hc
    rw [fillFixed_length _ _ _ h2, fillFree_length _ _ _ _ h1, ih]

/-- C27: the view constructed from a factor with values `f` and sorted fixed positions. After any earlier calls, the call at the free entries
of a full label tuple `c` that has the fixed labels at the fixed positions returns `f c`. -/
theorem C27_value {F : FactorOps.Fn V} {f : List Nat → V} (hF : ∀ c, InShape F.shape c → F.eval c = some (f c)) {fixed : List (Nat × Nat)}
    (hv : ValidFix F.shape (fixed.map Prod.fst) (fixed.map Prod.snd)) :
    ∃ v, construct F fixed = some v ∧ ∀ buf, ReachableBuffer v buf → ∀ c, InShape F.shape c →
      HasFixed (fixed.map Prod.fst) (fixed.map Prod.snd) c → ∀ rest,
      ∃ buf', call v buf (dropPositions (fixed.map Prod.fst) c ++ rest) = some (f c, buf') := by
  have hlen := (length_freeFrom _ hv.sorted F.shape.length hv.inRange).2
  rw [List.length_map] at hlen
  refine ⟨_, if_pos hlen, ?_⟩
  intro buf hb c hc hf rest
  refine ⟨c, ?_⟩
  rw [call_spec (if_pos hlen) hv.sorted hv.inRange c rest buf hb.length (inShape_length hc), hF c hc]
  · rfl
  · intro p l hpl
    obtain ⟨i, hi⟩ := List.getElem?_of_mem hpl
    exact hf i p l (by simp [hi]) (by simp [hi])

/-- C27: every label tuple in range of the view's shape is the free part of exactly one such full tuple, so `C27_value` covers all calls. -/
theorem C27_covers {shape : List Nat} {fixed : List (Nat × Nat)} (hv : ValidFix shape (fixed.map Prod.fst) (fixed.map Prod.snd))
    (x : List Nat) (hx : InShape (dropPositions (fixed.map Prod.fst) shape) x) :
    ∃ c, (InShape shape c ∧ HasFixed (fixed.map Prod.fst) (fixed.map Prod.snd) c ∧ dropPositions (fixed.map Prod.fst) c = x) ∧
      ∀ c', InShape shape c' → HasFixed (fixed.map Prod.fst) (fixed.map Prod.snd) c' → dropPositions (fixed.map Prod.fst) c' = x → c' = c := by
  have hr := hv.rem
  have hfree : freeShape (maskFrom shape.length 0 (fixed.map Prod.fst) (fixed.map Prod.snd)) shape = dropPositions (fixed.map Prod.fst) shape := by
    rw [freeShape_eq shape 0 _ _ hr]; rfl
  have hmem := fun c => embed_mem shape 0 (fixed.map Prod.fst) (fixed.map Prod.snd) c hr (by
      intro i j v n h1 h2 h3
      exact hv.values i j v n (by simpa using h1) h2 h3)
  rw [← hfree] at hx
  refine ⟨embed (maskFrom shape.length 0 (fixed.map Prod.fst) (fixed.map Prod.snd)) x, ⟨?_, ?_, ?_⟩, ?_⟩
  · exact ((hmem _).mp ⟨x, hx, rfl⟩).1
  · intro i j v h1 h2
    exact ((hmem _).mp ⟨x, hx, rfl⟩).2 i j v (by simpa using h1) h2 (hv.inRange j (List.mem_of_getElem? h1))
  · exact drop_embed shape 0 _ _ x hr hx
  · intro c' h1 h2 h3
    obtain ⟨t, ht, rfl⟩ := (hmem c').mpr ⟨h1, fun i j v g1 g2 _ => h2 i j v (by simpa using g1) g2⟩
    have : dropPositions (fixed.map Prod.fst) (embed (maskFrom shape.length 0 (fixed.map Prod.fst) (fixed.map Prod.snd)) t) = t :=
      drop_embed shape 0 _ _ t hr ht
    rw [← h3, this]

/-- C27: `dimension()`, `shape(i)` and `size()` (first call or cached) are those of the factor's shape without the fixed positions. -/
theorem C27_shape {F : FactorOps.Fn V} {fixed : List (Nat × Nat)} (hp : ∀ n ∈ F.shape, 0 < n)
    (hv : ValidFix F.shape (fixed.map Prod.fst) (fixed.map Prod.snd)) :
    ∃ v, construct F fixed = some v ∧ dimension v = (dropPositions (fixed.map Prod.fst) F.shape).length ∧
      (∀ i, i < dimension v → shapeAt v i = (dropPositions (fixed.map Prod.fst) F.shape)[i]?) ∧
      ∃ cache, size v (false, 1) = some ((dropPositions (fixed.map Prod.fst) F.shape).prod, cache) ∧
        size v cache = some ((dropPositions (fixed.map Prod.fst) F.shape).prod, cache) := by
  have hlen := length_freeFrom _ hv.sorted F.shape.length hv.inRange
  rw [List.length_map] at hlen
  refine ⟨_, if_pos hlen.2, ?_, ?_, (true, (dropPositions (fixed.map Prod.fst) F.shape).prod), ?_, ?_⟩
  · have hd : dropPositions (fixed.map Prod.fst) F.shape = (freeFrom (fixed.map Prod.fst) 0 F.shape.length).map (fun j => F.shape.getD j 0) :=
      dropPositions_eq (fixed.map Prod.fst) F.shape 0
    rw [hd, List.length_map, hlen.1]
    rfl
  · exact fun i hi => shapeAt_spec (if_pos hlen.2) hv.sorted hv.inRange i hi
  · have := prod_dropPositions fixed F.shape 0 1 hv.sorted (fun p hp => ⟨by omega, by have := hv.inRange p hp; omega⟩) hp F.shape rfl
    simp only [Nat.one_mul] at this
    simp only [size, Bool.false_eq_true, if_false, this, Option.map_some]
    rfl
  · simp [size]

/-- Why the positions have to be sorted: with positions 1, 0 fixed to 1, 1 in a function of three variables the remaining
label is not passed on (the value of the tuple `(1,1,0)` is returned for `(1,1,2)`). -/
theorem C27_unsorted : ∃ v : View Nat, construct ⟨[2, 2, 3], fun c => some (100 * c.getD 0 0 + 10 * c.getD 1 0 + c.getD 2 0)⟩ [(1, 1), (0, 1)] = some v ∧
    (call v [0, 0, 0] [2]).map Prod.fst = some 110 := ⟨_, rfl, rfl⟩

/-- Hypotheses of C27 for a function of four variables with variables 1 and 3 fixed, and what the view returns. -/
example : ValidFix [2, 3, 4, 2] ([(1, 2), (3, 1)].map Prod.fst) ([(1, 2), (3, 1)].map Prod.snd) := by
  refine ⟨rfl, by simp [StrictlySorted], by simp, ?_⟩
  intro i j v n h1 h2 h3
  match i with
  | 0 => simp at h1 h2; subst h1 h2; simp at h3; omega
  | 1 => simp at h1 h2; subst h1 h2; simp at h3; omega
  | i + 2 => simp at h1

example : ∃ v : View Nat, construct ⟨[2, 3, 4, 2], fun c => some (c.foldl (fun a x => 10 * a + x) 0)⟩ [(1, 2), (3, 1)] = some v ∧
    (call v [0, 0, 0, 0] [1, 3]).map Prod.fst = some 1231 ∧ size v (false, 1) = some (8, (true, 8)) := ⟨_, rfl, rfl, rfl⟩

end ViewFix
end OpenGM
