import Verif.Spec.Distance
import Verif.Lemmas.LazyAdjacency
import Verif.Lemmas.ICM
/-
Energies of labelings that exchange the labels of some variables, for the proof of the optimality of LazyFlipper.
-/
namespace OpenGM.LazyFlip
open Spec Movemaker
variable {V : Type}

/-! ### exchange of labels -/

theorem total_map_op {o : Operation V} (ho : o.IsCommMonoid) (g h : Nat → V) : ∀ l : List Nat,
    o.op (total o (l.map g)) (total o (l.map h)) = total o (l.map (fun f => o.op (g f) (h f)))
  | [] => by simp [total, ho.neutral_left]
  | a :: l => by
    simp only [List.map_cons, total_cons ho]
    rw [← total_map_op ho g h l]
    generalize total o (l.map g) = G
    generalize total o (l.map h) = H
    rw [ho.assoc, ← ho.assoc G, ho.comm G, ho.assoc (h a), ← ho.assoc]

/-- Each term sees the labels of `x` and `y`, in one of the two orders. -/
def Exchanged (p : Problem V) (x y x' y' : List Nat) : Prop :=
  ∀ f, (∀ v, mentions p.terms v f = true → x'[v]? = x[v]? ∧ y'[v]? = y[v]?) ∨
    (∀ v, mentions p.terms v f = true → x'[v]? = y[v]? ∧ y'[v]? = x[v]?)

theorem exchange {o : Operation V} (ho : o.IsCommMonoid) {p : Problem V} {x y x' y' : List Nat} (h : Exchanged p x y x' y') :
    o.op (p.energy o x') (p.energy o y') = o.op (p.energy o x) (p.energy o y) := by
  simp only [energy_eq_total]
  rw [total_map_op ho, total_map_op ho]
  congr 1
  apply List.map_congr_left
  intro f _
  rcases h f with h | h
  · rw [termVal_congr o p x' x f (fun v hv => (h v hv).1), termVal_congr o p y' y f (fun v hv => (h v hv).2)]
  · rw [termVal_congr o p x' y f (fun v hv => (h v hv).1), termVal_congr o p y' x f (fun v hv => (h v hv).2), ho.comm]

/-- The labels of `z` on `P` and those of `x` elsewhere. -/
def mix (P z x : List Nat) : List Nat := (List.range x.length).map (fun v => if v ∈ P then z.getD v 0 else x.getD v 0)

theorem mix_get {P z x : List Nat} (h : z.length = x.length) (v : Nat) : (mix P z x)[v]? = if v ∈ P then z[v]? else x[v]? := by
  unfold mix
  rcases Nat.lt_or_ge v x.length with hv | hv
  · have hz : v < z.length := by omega
    rw [List.getElem?_map, List.getElem?_range hv]
    simp only [Option.map_some]
    split <;> simp [List.getElem?_eq_getElem, hv, hz]
  · rw [List.getElem?_eq_none (by simpa using hv)]
    split
    · rw [List.getElem?_eq_none (by omega)]
    · rw [List.getElem?_eq_none hv]

theorem mix_length {P z x : List Nat} : (mix P z x).length = x.length := by simp [mix]

theorem mix_labeling {p : Problem V} {P z x : List Nat} (hz : p.Labeling z) (hx : p.Labeling x) : p.Labeling (mix P z x) := by
  refine ⟨by rw [mix_length]; exact hx.1, ?_⟩
  intro v l n h1 h2
  rw [mix_get (by rw [hz.1, hx.1])] at h1
  split at h1
  · exact hz.2 v l n h1 h2
  · exact hx.2 v l n h1 h2

/-! ### no improvement by changing all labels of a set -/

/-- No labeling that differs from `x` exactly on `P` is better. -/
def NI (o : Operation V) (bop : V → V → Bool) (p : Problem V) (x P : List Nat) : Prop :=
  ∀ z, p.Labeling z → AgreeOutside P x z → AllChanged P x z → bop (p.energy o z) (p.energy o x) = false

/-- A change of variables that are neither in `Q` nor share terms with `Q` keeps `NI`. -/
theorem ni_stable {o : InvOperation V} {bop : V → V → Bool} (hc : IcmContext o bop) {p : Problem V} {x y P Q : List Nat} (hx : p.Labeling x)
    (hxy : AgreeOutside P x y) (hsep : ∀ u ∈ P, ∀ v ∈ Q, u ≠ v ∧ ¬ Share p u v) (h : NI o.toOperation bop p x Q) : NI o.toOperation bop p y Q := by
  intro z hz hza hzc
  have hl : z.length = x.length := by rw [hza.1, hxy.1]
  have hw := mix_labeling (P := Q) hz hx
  have hwa : AgreeOutside Q x (mix Q z x) := ⟨mix_length, fun v hv => by rw [mix_get hl, if_neg hv]⟩
  have hQP : ∀ v ∈ Q, v ∉ P := fun v hv hP => (hsep v hP v hv).1 rfl
  have hwc : AllChanged Q x (mix Q z x) := by
    intro v hv
    rw [mix_get hl, if_pos hv, ← hxy.2 v (hQP v hv)]
    exact hzc v hv
  have hex : Exchanged p (mix Q z x) y z x := by
    intro f
    by_cases hf : ∃ v ∈ Q, mentions p.terms v f = true
    · obtain ⟨q, hq, hqf⟩ := hf
      left
      intro v hv
      have hvP : v ∉ P := fun hP => (hsep v hP q hq).2 ⟨(hsep v hP q hq).1, f, hv, hqf⟩
      refine ⟨?_, (hxy.2 v hvP).symm⟩
      rw [mix_get hl]
      split
      · rfl
      · next hvQ => rw [hza.2 v hvQ, hxy.2 v hvP]
    · right
      intro v hv
      have hvQ : v ∉ Q := fun hq => hf ⟨v, hq, hv⟩
      exact ⟨hza.2 v hvQ, by rw [mix_get hl, if_neg hvQ]⟩
  have he := exchange hc.comm hex
  by_contra hcon
  rw [Bool.not_eq_false] at hcon
  have h1 := hc.preserves (p.energy o.toOperation x) _ _ hcon
  rw [hc.comm.comm _ (p.energy o.toOperation z), he, hc.comm.comm (p.energy o.toOperation (mix Q z x)), hc.comm.comm (p.energy o.toOperation x)] at h1
  have h2 := hc.reflects _ _ _ h1
  rw [h _ hw hwa hwc] at h2
  simp at h2


/-- If the differing variables `S` split into `T` and the rest, without common terms, and neither part improves, then the whole does not. -/
theorem ni_split {o : InvOperation V} {bop : V → V → Bool} (hc : IcmContext o bop) (hnt : Comparable bop) {p : Problem V} {x z T : List Nat}
    (hx : p.Labeling x) (hz : p.Labeling z) (hT : ∀ u ∈ T, z[u]? ≠ x[u]?)
    (hsep : ∀ u ∈ T, ∀ v, v ∉ T → z[v]? ≠ x[v]? → ¬ Share p u v)
    (h1 : NI o.toOperation bop p x T)
    (h2 : bop (p.energy o.toOperation (mix T x z)) (p.energy o.toOperation x) = false) :
    bop (p.energy o.toOperation z) (p.energy o.toOperation x) = false := by
  have hl : z.length = x.length := by rw [hz.1, hx.1]
  have h1' := h1 (mix T z x) (mix_labeling hz hx) ⟨mix_length, fun v hv => by rw [mix_get hl, if_neg hv]⟩
    (fun v hv => by rw [mix_get hl, if_pos hv]; exact hT v hv)
  have hex : Exchanged p x z (mix T z x) (mix T x z) := by
    intro f
    by_cases hf : ∃ v ∈ T, mentions p.terms v f = true
    · obtain ⟨q, hq, hqf⟩ := hf
      right
      intro v hv
      rw [mix_get hl, mix_get hl.symm]
      by_cases hvT : v ∈ T
      · simp [hvT]
      · rw [if_neg hvT, if_neg hvT]
        have : z[v]? = x[v]? := by
          by_contra hne
          exact hsep q hq v hvT hne ⟨fun e => hvT (e ▸ hq), f, hqf, hv⟩
        exact ⟨this.symm, this⟩
    · left
      intro v hv
      have hvT : v ∉ T := fun hq => hf ⟨v, hq, hv⟩
      rw [mix_get hl, mix_get hl.symm, if_neg hvT, if_neg hvT]
      exact ⟨rfl, rfl⟩
  have he := exchange hc.comm hex
  by_contra hcon
  rw [Bool.not_eq_false] at hcon
  have h3 := hc.preserves (p.energy o.toOperation x) _ _ hcon
  rw [← he] at h3
  rcases hnt _ (o.op (p.energy o.toOperation x) (p.energy o.toOperation (mix T x z))) _ h3 with h4 | h4
  · rw [hc.comm.comm _ (p.energy o.toOperation (mix T x z)), hc.comm.comm _ (p.energy o.toOperation (mix T x z))] at h4
    have := hc.reflects _ _ _ h4
    rw [h1'] at this
    simp at this
  · have := hc.reflects _ _ _ h4
    rw [h2] at this
    simp at this

/-! ### canonical paths -/

/-- The variable `v` can be appended to the path `P`. -/
structure ChildOk (adj : List (List Nat)) (P : List Nat) (v : Nat) : Prop where
  nb : ∃ u ∈ P, Nb adj u v
  new : v ∉ P
  head : ∀ h, P.head? = some h → h < v
  late : ∀ A u B, P = A ++ u :: B → Nb adj u v → ∀ w ∈ B, w < v

/-- The paths of the forest: a variable, or a path with an appended variable. -/
inductive Canon (n : Nat) (adj : List (List Nat)) : List Nat → Prop
  | single {v} : v < n → Canon n adj [v]
  | snoc {P v} : Canon n adj P → ChildOk adj P v → Canon n adj (P ++ [v])

theorem Canon.props {n : Nat} {adj : List (List Nat)} (ha : AdjOk n adj) {P : List Nat} (h : Canon n adj P) : P.Nodup ∧ (∀ v ∈ P, v < n) ∧ P ≠ [] := by
  induction h with
  | single hv => simp [hv]
  | snoc _ hc ih =>
    refine ⟨?_, ?_, by simp⟩
    · rw [List.nodup_append]
      refine ⟨ih.1, by simp, ?_⟩
      intro a ha' b hb
      simp only [List.mem_singleton] at hb
      subst hb
      rintro rfl
      exact hc.new ha'
    · intro w hw
      rw [List.mem_append, List.mem_singleton] at hw
      rcases hw with hw | rfl
      · exact ih.2.1 w hw
      · obtain ⟨u, _, hu⟩ := hc.nb
        exact ha.range _ _ hu

/-- Paths that always continue with the smallest possible variable of `S`. -/
inductive Greedy (adj : List (List Nat)) (S : Nat → Prop) : List Nat → Prop
  | single {m} : S m → (∀ v, S v → m ≤ v) → Greedy adj S [m]
  | snoc {P v} : Greedy adj S P → S v → v ∉ P → (∃ u ∈ P, Nb adj u v) →
      (∀ w, S w → w ∉ P → (∃ u ∈ P, Nb adj u w) → v ≤ w) → Greedy adj S (P ++ [v])

theorem Greedy.late {adj : List (List Nat)} {S : Nat → Prop} {P : List Nat} (h : Greedy adj S P) {v : Nat} (hS : S v) :
    v ∉ P → ∀ A u B, P = A ++ u :: B → Nb adj u v → ∀ w ∈ B, w < v := by
  induction h with
  | single _ _ =>
    intro _ A u B e _ w hw
    have := congrArg List.length e
    simp at this
    have : B = [] := List.length_eq_zero_iff.mp (by omega)
    subst this
    simp at hw
  | @snoc P w0 hP _ _ _ hmin ih =>
    intro hnew A u B e hnb w hw
    rw [List.mem_append, List.mem_singleton, not_or] at hnew
    rcases List.eq_nil_or_concat B with rfl | ⟨B0, b, hB⟩
    · simp at hw
    · rw [List.concat_eq_append] at hB
      subst hB
      have e' : P ++ [w0] = (A ++ u :: B0) ++ [b] := by rw [e]; simp
      obtain ⟨e1, e2⟩ := List.append_inj' e' rfl
      simp only [List.cons.injEq, and_true] at e2
      subst e2
      rw [List.mem_append, List.mem_singleton] at hw
      rcases hw with hw | rfl
      · exact ih hnew.1 A u B0 e1 hnb w hw
      · have := hmin v hS hnew.1 ⟨u, by rw [e1]; simp, hnb⟩
        have := hnew.2
        omega

theorem Greedy.head {adj : List (List Nat)} {S : Nat → Prop} {P : List Nat} (h : Greedy adj S P) : ∃ m, P.head? = some m ∧ m ∈ P ∧ ∀ v, S v → m ≤ v := by
  induction h with
  | single _ hm => exact ⟨_, rfl, by simp, hm⟩
  | snoc _ _ _ _ _ ih =>
    obtain ⟨m, h1, h2, h3⟩ := ih
    exact ⟨m, by rw [List.head?_append, h1]; rfl, by simp [h2], h3⟩

theorem Greedy.childOk {adj : List (List Nat)} {S : Nat → Prop} {P : List Nat} (h : Greedy adj S P) {v : Nat} (hS : S v) (hv : v ∉ P)
    (hnb : ∃ u ∈ P, Nb adj u v) : ChildOk adj P v := by
  refine ⟨hnb, hv, ?_, h.late hS hv⟩
  intro m hm
  obtain ⟨m', h1, h2, h3⟩ := h.head
  rw [hm] at h1
  obtain rfl := Option.some.inj h1
  have := h3 v hS
  rcases Nat.lt_or_ge m v with h' | h'
  · exact h'
  · exact absurd h2 (by rw [Nat.le_antisymm this h']; exact hv)

theorem Greedy.canon {n : Nat} {adj : List (List Nat)} {S : Nat → Prop} (hn : ∀ v, S v → v < n) {P : List Nat} (h : Greedy adj S P) :
    Canon n adj P ∧ ∀ v ∈ P, S v := by
  induction h with
  | single hm _ => exact ⟨.single (hn _ hm), by simpa using hm⟩
  | snoc hP hS hv hnb _ ih =>
    refine ⟨.snoc ih.1 (hP.childOk hS hv hnb), ?_⟩
    intro w hw
    rw [List.mem_append, List.mem_singleton] at hw
    rcases hw with hw | rfl
    · exact ih.2 w hw
    · exact hS

/-- Any greedy path can be continued to one with no further neighbours in `S`. -/
theorem Greedy.complete {n : Nat} {adj : List (List Nat)} (ha : AdjOk n adj) {S : Nat → Prop} (hn : ∀ v, S v → v < n) : ∀ (k : Nat) (P : List Nat),
    Greedy adj S P → n ≤ P.length + k → ∃ Q, Greedy adj S Q ∧ ∀ u ∈ Q, ∀ v, S v → v ∉ Q → ¬ Nb adj u v := by
  intro k
  induction k with
  | zero =>
    intro P hP hk
    refine ⟨P, hP, ?_⟩
    intro u _ v hS hv
    exfalso
    have hp := (hP.canon hn).1.props ha
    have : (v :: P).length ≤ n := by
      have hnd : (v :: P).Nodup := List.nodup_cons.mpr ⟨hv, hp.1⟩
      have := (List.subperm_of_subset hnd (l₂ := List.range n) (by
        intro a ha
        rw [List.mem_range]
        rcases List.mem_cons.mp ha with rfl | ha
        · exact hn _ hS
        · exact hp.2.1 a ha)).length_le
      simpa using this
    simp at this
    omega
  | succ k ih =>
    intro P hP hk
    by_cases hex : ∃ v, S v ∧ v ∉ P ∧ ∃ u ∈ P, Nb adj u v
    · classical
      have hs := Nat.find_spec hex
      have hmin : ∀ w, S w → w ∉ P → (∃ u ∈ P, Nb adj u w) → Nat.find hex ≤ w := fun w h1 h2 h3 => Nat.find_min' hex ⟨h1, h2, h3⟩
      exact ih _ (.snoc hP hs.1 hs.2.1 hs.2.2 hmin) (by simp; omega)
    · refine ⟨P, hP, ?_⟩
      intro u hu v hS hv hnb
      exact hex ⟨v, hS, hv, u, hu, hnb⟩


theorem ni_all {o : InvOperation V} {bop : V → V → Bool} (hc : IcmContext o bop) (hnt : Comparable bop) {p : Problem V} {adj : List (List Nat)}
    (ha : AdjOk p.numLabels.length adj) (hshare : ∀ a b, Nb adj a b ↔ Share p a b) {x : List Nat} (hx : p.Labeling x) {k : Nat}
    (hni : ∀ P, Canon p.numLabels.length adj P → P.length ≤ k → NI o.toOperation bop p x P) :
    ∀ (d : Nat) (z : List Nat), p.Labeling z → distance x z ≤ d → d ≤ k → bop (p.energy o.toOperation z) (p.energy o.toOperation x) = false := by
  intro d
  induction d with
  | zero =>
    intro z hz hd _
    have : z = x := by
      apply List.ext_getElem?
      intro v
      by_contra hne
      have hv : v < x.length := by
        rcases Nat.lt_or_ge v x.length with h | h
        · exact h
        · exact absurd (by rw [List.getElem?_eq_none h, List.getElem?_eq_none (by rw [hz.1, ← hx.1]; exact h)]) hne
      have := List.countP_pos_iff (p := fun v : Nat => decide (z[v]? ≠ x[v]?)).mpr ⟨v, List.mem_range.mpr hv, (decide_eq_true hne : decide (z[v]? ≠ x[v]?) = true)⟩
      unfold distance at hd
      omega
    rw [this]
    exact hc.order.irrefl _
  | succ d ih =>
    intro z hz hd hk
    by_cases hex : ∃ v : Nat, z[v]? ≠ x[v]?
    · have hn : ∀ v : Nat, z[v]? ≠ x[v]? → v < p.numLabels.length := by
        intro v hne
        by_contra h
        exact hne (by rw [List.getElem?_eq_none (by rw [hz.1]; omega), List.getElem?_eq_none (by rw [hx.1]; omega)])
      classical
      obtain ⟨Q, hQ, hmax⟩ := Greedy.complete ha hn p.numLabels.length [Nat.find hex]
        (.single (Nat.find_spec hex) (fun v hv => Nat.find_min' hex hv)) (by simp)
      have hcan := hQ.canon hn
      have hpr := hcan.1.props ha
      have hl : z.length = x.length := by rw [hz.1, hx.1]
      -- the variables of the path differ
      have hlen : Q.length ≤ distance x z := by
        unfold distance
        rw [List.countP_eq_length_filter]
        refine (List.subperm_of_subset hpr.1 ?_).length_le
        intro v hv
        rw [List.mem_filter, List.mem_range]
        exact ⟨by rw [hx.1]; exact hpr.2.1 v hv, decide_eq_true (hcan.2 v hv)⟩
      apply ni_split hc hnt hx hz hcan.2
      · intro u hu v hv hne hsh
        exact hmax u hu v hne hv ((hshare u v).mpr hsh)
      · exact hni Q hcan.1 (by omega)
      · apply ih _ (mix_labeling hx hz) _ (by omega)
        have hlt : distance x (mix Q x z) < distance x z := by
          obtain ⟨q, hq⟩ := List.exists_mem_of_ne_nil Q hpr.2.2
          apply Icm.countP_lt _ _ _ _ q (List.mem_range.mpr (by rw [hx.1]; exact hpr.2.1 q hq))
          · rw [mix_get hl.symm, if_pos hq]
            simp
          · exact decide_eq_true (hcan.2 q hq)
          · intro v _ h
            rw [mix_get hl.symm] at h
            split at h
            · simp at h
            · exact h
        omega
    · push_neg at hex
      rw [List.ext_getElem? hex]
      exact hc.order.irrefl _

end OpenGM.LazyFlip
