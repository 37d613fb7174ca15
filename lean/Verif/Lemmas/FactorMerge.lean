import Verif.Lemmas.WalkLoop
/-
Variables and shape of the result of a binary operation; labelings and tuples.
-/
namespace OpenGM
open Spec
namespace FactorOps
open Marray Geometry Walkers
variable {V : Type}

theorem mergeLoop_spec (L : Nat → Nat) : ∀ (n : Nat) (as bs : List Nat) (last : Nat), as.length + bs.length = n →
    StrictlySorted as → StrictlySorted bs → (∀ v ∈ as, last ≤ v) → (∀ v ∈ bs, last ≤ v) →
    ∃ m, mergeLoop n (as.map (fun v => (v, L v))) (bs.map (fun v => (v, L v))) last = m.map (fun v => (v, L v)) ∧
      StrictlySorted m ∧ (∀ v ∈ m, last < v) ∧ ∀ v, last < v → (v ∈ m ↔ v ∈ as ∨ v ∈ bs) := by
  intro n
  induction n with
  | zero =>
    intro as bs last hn _ _ _ _
    have h1 : as = [] := List.length_eq_zero_iff.mp (by omega)
    have h2 : bs = [] := List.length_eq_zero_iff.mp (by omega)
    subst h1 h2
    exact ⟨[], by simp [mergeLoop], List.Pairwise.nil, by simp, by simp⟩
  | succ n ih =>
    -- one iteration appends the smaller entry `x` unless it equals `last`
    have key : ∀ (x : Nat) (as bs as' bs' : List Nat) (last : Nat), as'.length + bs'.length = n → StrictlySorted as' → StrictlySorted bs' →
        last ≤ x → (∀ v ∈ as', x ≤ v) → (∀ v ∈ bs', x ≤ v) → (∀ v, (v ∈ as ∨ v ∈ bs) ↔ v = x ∨ v ∈ as' ∨ v ∈ bs') →
        ∃ m, (if last ≠ x then (x, L x) :: mergeLoop n (as'.map (fun v => (v, L v))) (bs'.map (fun v => (v, L v))) x
          else mergeLoop n (as'.map (fun v => (v, L v))) (bs'.map (fun v => (v, L v))) last) = m.map (fun v => (v, L v)) ∧
          StrictlySorted m ∧ (∀ v ∈ m, last < v) ∧ ∀ v, last < v → (v ∈ m ↔ v ∈ as ∨ v ∈ bs) := by
      intro x as bs as' bs' last hn ha hb hx hax hbx hmem
      obtain ⟨m, e, hs, hlt, hm⟩ := ih as' bs' x hn ha hb hax hbx
      by_cases hlx : last = x
      · subst hlx
        rw [if_neg (by simp)]
        refine ⟨m, e, hs, hlt, ?_⟩
        intro v hv
        rw [hm v hv, hmem v]
        have : v ≠ last := by omega
        simp [this]
      · rw [if_pos hlx]
        refine ⟨x :: m, by rw [e]; rfl, List.pairwise_cons.mpr ⟨hlt, hs⟩, ?_, ?_⟩
        · intro v hv
          rcases List.mem_cons.mp hv with rfl | hv
          · omega
          · have := hlt v hv; omega
        · intro v hv
          rw [hmem v, List.mem_cons]
          constructor
          · rintro (h | h)
            · exact Or.inl h
            · exact Or.inr ((hm v (hlt v h)).mp h)
          · rintro (h | h)
            · exact Or.inl h
            · by_cases hvx : v = x
              · exact Or.inl hvx
              · right
                have : x ≤ v := by
                  rcases h with h | h
                  · exact hax v h
                  · exact hbx v h
                exact (hm v (by omega)).mpr h
    intro as bs last hn ha hb hla hlb
    match as, bs with
    | [], [] => simp at hn
    | [], b :: bs =>
      have hb' := List.pairwise_cons.mp hb
      have := key b [] (b :: bs) [] bs last (by simpa using hn) List.Pairwise.nil hb'.2 (hlb b (by simp)) (by simp)
        (fun v hv => Nat.le_of_lt (hb'.1 v hv)) (by simp)
      simpa only [List.map_cons, List.map_nil, mergeLoop] using this
    | a :: as, [] =>
      have ha' := List.pairwise_cons.mp ha
      have := key a (a :: as) [] as [] last (by simpa using hn) ha'.2 List.Pairwise.nil (hla a (by simp))
        (fun v hv => Nat.le_of_lt (ha'.1 v hv)) (by simp) (by simp)
      simpa only [List.map_cons, List.map_nil, mergeLoop] using this
    | a :: as, b :: bs =>
      have ha' := List.pairwise_cons.mp ha
      have hb' := List.pairwise_cons.mp hb
      simp only [List.map_cons, mergeLoop]
      by_cases hab : a ≤ b
      · rw [if_pos hab]
        have := key a (a :: as) (b :: bs) as (b :: bs) last (by simp at hn ⊢; omega) ha'.2 hb (hla a (by simp))
          (fun v hv => Nat.le_of_lt (ha'.1 v hv)) (by
            intro v hv
            rcases List.mem_cons.mp hv with rfl | hv
            · exact hab
            · have := hb'.1 v hv; omega) (by intro v; simp only [List.mem_cons]; exact or_assoc)
        simpa only [List.map_cons] using this
      · rw [if_neg hab]
        have := key b (a :: as) (b :: bs) (a :: as) bs last (by simp at hn ⊢; omega) ha hb'.2 (hlb b (by simp))
          (by
            intro v hv
            rcases List.mem_cons.mp hv with rfl | hv
            · omega
            · have := ha'.1 v hv; omega) (fun v hv => Nat.le_of_lt (hb'.1 v hv)) (by intro v; simp only [List.mem_cons]; exact or_left_comm)
        simpa only [List.map_cons] using this

theorem zip_map_self (L : Nat → Nat) (l : List Nat) : l.zip (l.map L) = l.map (fun v => (v, L v)) := by
  induction l with
  | nil => rfl
  | cons a l ih => simp [ih]

/-- The variables of the result are the union, with their numbers of labels. -/
theorem computeViandShape_spec (L : Nat → Nat) {via vib : List Nat} {a b : Fn V} (ha : a.shape = via.map L) (hb : b.shape = vib.map L)
    (hsa : StrictlySorted via) (hsb : StrictlySorted vib) :
    ∃ vic, computeViandShape via vib a b = some (vic, vic.map L) ∧ StrictlySorted vic ∧ ∀ v, v ∈ vic ↔ v ∈ via ∨ v ∈ vib := by
  unfold computeViandShape
  rw [if_neg (by rw [ha, hb]; simp)]
  simp only [ha, hb, zip_map_self]
  have hmm : ∀ m : List Nat, (m.map (fun v => (v, L v))).map (fun e => e.1) = m ∧ (m.map (fun v => (v, L v))).map (fun e => e.2) = m.map L := by
    intro m
    constructor
    · rw [List.map_map]; exact List.map_id m
    · rw [List.map_map]; rfl
  match via, vib with
  | [], vib => exact ⟨vib, by simp only [List.map_nil]; rw [(hmm vib).1, (hmm vib).2], hsb, by simp⟩
  | a :: as, [] => exact ⟨a :: as, by simp only [List.map_cons, List.map_nil]; rw [(hmm as).1, (hmm as).2], hsa, by simp⟩
  | a :: as, b :: bs =>
    have ha' := List.pairwise_cons.mp hsa
    have hb' := List.pairwise_cons.mp hsb
    simp only [List.map_cons]
    by_cases hab : a ≤ b
    · rw [if_pos hab]
      obtain ⟨m, e, hs, hlt, hm⟩ := mergeLoop_spec L (as.length + bs.length + 1) as (b :: bs) a (by simp; omega) ha'.2 hsb (fun v hv => Nat.le_of_lt (ha'.1 v hv)) (by
        intro v hv
        rcases List.mem_cons.mp hv with rfl | hv
        · exact hab
        · have := hb'.1 v hv; omega)
      simp only [List.map_cons] at e
      simp only [List.length_map]
      rw [e]
      refine ⟨a :: m, by rw [List.map_cons, List.map_cons, (hmm m).1, (hmm m).2]; rfl, List.pairwise_cons.mpr ⟨hlt, hs⟩, ?_⟩
      intro v
      rw [List.mem_cons, List.mem_cons]
      constructor
      · rintro (h | h)
        · exact Or.inl (Or.inl h)
        · rcases (hm v (hlt v h)).mp h with h | h
          · exact Or.inl (Or.inr h)
          · exact Or.inr h
      · intro h
        by_cases hva : v = a
        · exact Or.inl hva
        · right
          rcases h with (h | h) | h
          · exact absurd h hva
          · exact (hm v (ha'.1 v h)).mpr (Or.inl h)
          · refine (hm v ?_).mpr (Or.inr h)
            rcases List.mem_cons.mp h with rfl | h
            · omega
            · have := hb'.1 v h; omega
    · rw [if_neg hab]
      obtain ⟨m, e, hs, hlt, hm⟩ := mergeLoop_spec L (as.length + bs.length + 1) (a :: as) bs b (by simp; omega) hsa hb'.2 (by
        intro v hv
        rcases List.mem_cons.mp hv with rfl | hv
        · omega
        · have := ha'.1 v hv; omega) (fun v hv => Nat.le_of_lt (hb'.1 v hv))
      simp only [List.map_cons] at e
      simp only [List.length_map]
      rw [e]
      refine ⟨b :: m, by rw [List.map_cons, List.map_cons, (hmm m).1, (hmm m).2]; rfl, List.pairwise_cons.mpr ⟨hlt, hs⟩, ?_⟩
      intro v
      rw [List.mem_cons]
      constructor
      · rintro (h | h)
        · exact Or.inr (List.mem_cons.mpr (Or.inl h))
        · rcases (hm v (hlt v h)).mp h with h | h
          · exact Or.inl h
          · exact Or.inr (List.mem_cons_of_mem _ h)
      · intro h
        by_cases hva : v = b
        · exact Or.inl hva
        · right
          have hbv : b < v := by
            rcases h with h | h
            · rcases List.mem_cons.mp h with rfl | h
              · omega
              · have := ha'.1 v h; omega
            · rcases List.mem_cons.mp h with rfl | h
              · exact absurd rfl hva
              · exact hb'.1 v h
          refine (hm v hbv).mpr ?_
          rcases h with h | h
          · exact Or.inl h
          · rcases List.mem_cons.mp h with h | h
            · exact absurd h hva
            · exact Or.inr h

/-! ### labelings and tuples -/

/-- The labeling with the entries of the tuple as labels of `vars`. -/
def labelingOf (vars t : List Nat) (v : Nat) : Nat := t.getD (vars.idxOf v) 0

theorem map_labelingOf {vars t : List Nat} (hn : vars.Nodup) (hl : t.length = vars.length) : vars.map (labelingOf vars t) = t := by
  apply List.ext_getElem
  · simp [hl]
  · intro i h1 h2
    simp only [List.length_map] at h1
    simp only [List.getElem_map, labelingOf]
    rw [List.Nodup.idxOf_getElem hn i h1, List.getD_eq_getElem?_getD, List.getElem?_eq_getElem h2, Option.getD_some]

theorem inShape_map (L x : Nat → Nat) : ∀ vars : List Nat, InShape (vars.map L) (vars.map x) ↔ Labels L vars x
  | [] => by simp [InShape, Labels]
  | v :: vars => by
    have := inShape_map L x vars
    simp only [List.map_cons, InShape, this, Labels, List.mem_cons, forall_eq_or_imp]

theorem labelingOf_spec {L : Nat → Nat} {vars t : List Nat} (hn : vars.Nodup) (h : InShape (vars.map L) t) :
    vars.map (labelingOf vars t) = t ∧ Labels L vars (labelingOf vars t) := by
  have h1 := map_labelingOf hn (by simpa using inShape_length h)
  refine ⟨h1, ?_⟩
  rw [← inShape_map, h1]
  exact h

theorem map_eq_of {vars : List Nat} {x y : Nat → Nat} (h : vars.map x = vars.map y) : ∀ v ∈ vars, x v = y v := by
  intro v hv
  exact (List.map_inj_left.mp h) v hv

theorem hasValue_congr {L : Nat → Nat} {vars shape : List Nat} {read : List Nat → Option V} {f : (Nat → Nat) → V}
    (h : HasValue L vars shape read f) {x y : Nat → Nat} (hx : Labels L vars x) (he : ∀ v ∈ vars, x v = y v) : f x = f y := by
  have hm : vars.map x = vars.map y := List.map_congr_left he
  have hy : Labels L vars y := fun v hv => by rw [← he v hv]; exact hx v hv
  have h1 := h.value x hx []
  have h2 := h.value y hy []
  rw [hm, h2] at h1
  exact (Option.some.inj h1).symm

theorem dotLoop_append : ∀ (st c rest : List Nat) (out : Nat), st.length = c.length → dotLoop st (c ++ rest) out = dotLoop st c out
  | [], [], _, _, _ => by simp [dotLoop]
  | [], _ :: _, _, _, h => by simp at h
  | _ :: _, [], _, _, h => by simp at h
  | s :: st, c :: cs, rest, out, h => by
    simp only [List.cons_append, dotLoop]
    exact dotLoop_append st cs rest _ (by simpa using h)

/-- Access by coordinates ignores what follows. -/
theorem ok_get_append {a : Arr V} {shape : List Nat} {o : Order} (h : a.Ok shape o) {c : List Nat} (hc : InShape shape c) (rest : List Nat) :
    a.get (c ++ rest) = a.get c := by
  obtain ⟨hg, mem, hm, hl⟩ := h
  unfold Arr.get
  rw [hm]
  simp only [View.at_, Arr.view]
  have : a.geometry.coordinatesToOffset (c ++ rest) = a.geometry.coordinatesToOffset c := by
    unfold coordinatesToOffset
    apply dotLoop_append
    have hi := (inv_dense shape o o).length
    rw [hg, hi, dense_shape, inShape_length hc]
  rw [this]

/-- An array whose entries are given by labelings has the value of the function. -/
theorem hasValue_of_ok {L : Nat → Nat} {vars : List Nat} {a : Arr V} {o : Order} {f : (Nat → Nat) → V} (h : a.Ok (vars.map L) o)
    (hv : ∀ x, Labels L vars x → a.get (vars.map x) = some (f x)) : HasValue L vars a.geometry.shape a.get f := by
  refine ⟨by rw [h.1, dense_shape], ?_⟩
  intro x hx rest
  rw [ok_get_append h ((inShape_map L x vars).mpr hx), hv x hx]

theorem restricts_map {L : Nat → Nat} {viAB viA ab a : List Nat} (hn : viAB.Nodup) (hsub : ∀ v ∈ viA, v ∈ viAB)
    (hin : InShape (viAB.map L) ab) (h : Restricts viAB viA ab a) : a = viA.map (labelingOf viAB ab) := by
  have hm := (labelingOf_spec hn hin).1
  apply List.ext_getElem?
  intro j
  rcases Nat.lt_or_ge j viA.length with hj | hj
  · obtain ⟨d, hd, he⟩ := List.getElem_of_mem (hsub viA[j] (List.getElem_mem hj))
    have h1 := h.2 j d viA[j] (List.getElem?_eq_getElem hj) (by rw [List.getElem?_eq_getElem hd, he])
    rw [h1]
    conv_lhs => rw [← hm]
    rw [List.getElem?_map, List.getElem?_map, List.getElem?_eq_getElem hd, List.getElem?_eq_getElem hj, he]
  · rw [List.getElem?_eq_none (by rw [h.1]; exact hj), List.getElem?_eq_none (by simpa using hj)]

end FactorOps
end OpenGM
