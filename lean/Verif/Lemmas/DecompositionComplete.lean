import Verif.Lemmas.DecompositionReorder
/-
GraphicalModelDecomposition::complete.
-/
namespace OpenGM
namespace Decomposition
open Spec

theorem mem_visits {d : Decomposition} {s : SubVariable} {v : Nat} : (s, v) ∈ d.visits ↔ CopyOf d.varLists s.model s.id v := by
  unfold visits CopyOf
  simp only [List.mem_flatMap, List.mem_map, Prod.exists, Prod.mk.injEq]
  constructor
  · rintro ⟨l, i, h1, t, h2, rfl, rfl⟩
    rw [List.mem_zipIdx_iff_getElem?] at h1
    exact ⟨l, h1, h2⟩
  · rintro ⟨l, h1, h2⟩
    exact ⟨l, v, by rw [List.mem_zipIdx_iff_getElem?]; exact h1, s, h2, rfl, rfl⟩

theorem realFold_spec {counts : List Nat} : ∀ (A : List (SubVariable × Nat)) (table : List (List Nat)),
    table.map List.length = counts → (∀ p ∈ A, ∃ n, counts[p.1.model]? = some n ∧ p.1.id < n) →
    (∀ p ∈ A, ∀ q ∈ A, p.1 = q.1 → p.2 = q.2) →
    ∃ T, A.foldlM (fun table (p : SubVariable × Nat) => setEntry table p.1.model p.1.id p.2) table = some T ∧
      (∀ p ∈ A, entry T p.1.model p.1.id = some p.2) ∧
      (∀ m k, (∀ p ∈ A, p.1 ≠ ⟨m, k⟩) → entry T m k = entry table m k) := by
  intro A
  induction A with
  | nil =>
    intro table _ _ _
    exact ⟨table, rfl, by simp, fun _ _ _ => rfl⟩
  | cons p A ih =>
    intro table hs hr hf
    obtain ⟨n, hn, hk⟩ := hr p (by simp)
    obtain ⟨T1, e1, s1, g1⟩ := setEntry_spec hs hn hk p.2
    obtain ⟨T, e2, h2, h3⟩ := ih T1 s1 (fun q hq => hr q (by simp [hq])) (fun q hq r hr => hf q (by simp [hq]) r (by simp [hr]))
    refine ⟨T, ?_, ?_, ?_⟩
    · rw [List.foldlM_cons, e1]
      exact e2
    · intro q hq
      rcases List.mem_cons.mp hq with hq | hq
      · subst hq
        by_cases hx : ∃ r ∈ A, r.1 = q.1
        · obtain ⟨r, hr1, hr2⟩ := hx
          rw [← hr2, h2 r hr1, hf r (by simp [hr1]) q (by simp) hr2]
        · rw [h3 _ _ (by intro r hr1 hr2; exact hx ⟨r, hr1, by rw [hr2]⟩), g1, if_pos ⟨rfl, rfl⟩]
      · exact h2 q hq
    · intro m k hne
      rw [h3 m k (fun q hq => hne q (by simp [hq])), g1, if_neg]
      rintro ⟨rfl, rfl⟩
      exact hne p (by simp) rfl

theorem realTable_spec {scopes : List (List Nat)} {d : Decomposition} (h : WF scopes d) :
    ∃ T, d.realTable = some T ∧ ∀ m k v, CopyOf d.varLists m k v → entry T m k = some v := by
  obtain ⟨T, e, h1, _⟩ := realFold_spec (counts := d.numSubVars) d.visits d.zeroTable d.zeroTable_shape
    (by
      rintro ⟨s, v⟩ hp
      rw [mem_visits] at hp
      exact (h.numbered.range s.model s.id).mp ⟨v, hp⟩)
    (by
      rintro ⟨s, v⟩ hp ⟨t, w⟩ hq e
      rw [mem_visits] at hp hq
      simp only at e
      subst e
      exact h.numbered.unique s.model s.id v w hp hq)
  refine ⟨T, e, ?_⟩
  intro m k v hc
  exact h1 (⟨m, k⟩, v) (mem_visits.mpr hc)

/-- Factor `f` has a copy, and its only variable is `v`. -/
def UnaryAt (scopes : List (List Nat)) (d : Decomposition) (f v : Nat) : Prop :=
  scopes[f]? = some [v] ∧ ∃ s l, d.facLists[f]? = some (s :: l)

theorem copiesOf_one {varLists : List (List SubVariable)} {m k : Nat} {vars : List Nat} (h : CopiesOf varLists m [k] vars) :
    ∃ v, vars = [v] ∧ CopyOf varLists m k v := by
  unfold CopiesOf at h
  cases h with
  | cons h1 h2 =>
    cases h2
    exact ⟨_, rfl, h1⟩

theorem copyOf_lt {scopes : List (List Nat)} {d : Decomposition} (h : WF scopes d) {m k v : Nat} (hc : CopyOf d.varLists m k v) : v < d.numVars := by
  obtain ⟨l, h1, _⟩ := hc
  rw [← h.varsLen]
  exact (List.getElem?_eq_some_iff.mp h1).1

theorem unaryStep_spec {scopes : List (List Nat)} {d : Decomposition} (h : WF scopes d) {real : List (List Nat)}
    (hreal : ∀ m k v, CopyOf d.varLists m k v → entry real m k = some v) {unary : List (Option Nat)} (hl : unary.length = d.numVars)
    {f : Nat} {l : List SubFactor} (hf : d.facLists[f]? = some l) :
    ∃ unary', unaryStep real unary f l = some unary' ∧ unary'.length = d.numVars ∧
      ∀ v : Nat, v < d.numVars → (UnaryAt scopes d f v ∧ unary'[v]? = some (some f)) ∨ (¬ UnaryAt scopes d f v ∧ unary'[v]? = unary[v]?) := by
  cases l with
  | nil =>
    refine ⟨unary, rfl, hl, fun v _ => Or.inr ⟨?_, rfl⟩⟩
    rintro ⟨_, s, l, h2⟩
    rw [hf] at h2
    simp at h2
  | cons s l =>
    obtain ⟨hm, vars, hv, hc⟩ := h.copies f _ s hf (by simp)
    simp only [unaryStep]
    split
    · rename_i k hk
      rw [hk] at hc
      obtain ⟨w, rfl, hw⟩ := copiesOf_one hc
      have hwl : w < unary.length := by rw [hl]; exact copyOf_lt h hw
      rw [hreal _ _ _ hw]
      simp only [if_pos hwl]
      refine ⟨_, rfl, by simp [hl], ?_⟩
      intro v hvn
      by_cases e : w = v
      · subst e
        exact Or.inl ⟨⟨hv, s, l, hf⟩, List.getElem?_set_self hwl⟩
      · refine Or.inr ⟨?_, List.getElem?_set_ne e⟩
        rintro ⟨h2, _⟩
        rw [hv] at h2
        simp only [Option.some.injEq, List.cons.injEq, and_true] at h2
        exact e h2
    · rename_i hne
      refine ⟨unary, rfl, hl, fun v _ => Or.inr ⟨?_, rfl⟩⟩
      rintro ⟨h2, _⟩
      rw [hv] at h2
      injection h2 with h2
      subst h2
      unfold CopiesOf at hc
      generalize hi : s.indices = ids at hc hne
      cases hc with
      | cons h1 h2 =>
        cases h2
        exact hne _ rfl

theorem unaryFold_spec {scopes : List (List Nat)} {d : Decomposition} (h : WF scopes d) {real : List (List Nat)}
    (hreal : ∀ m k v, CopyOf d.varLists m k v → entry real m k = some v) :
    ∀ (A : List (List SubFactor × Nat)) (unary : List (Option Nat)), (∀ p ∈ A, d.facLists[p.2]? = some p.1) → unary.length = d.numVars →
      ∃ U, A.foldlM (fun unary (p : List SubFactor × Nat) => unaryStep real unary p.2 p.1) unary = some U ∧ U.length = d.numVars ∧
        ∀ v : Nat, v < d.numVars → (∃ p ∈ A, UnaryAt scopes d p.2 v ∧ U[v]? = some (some p.2)) ∨ ((∀ p ∈ A, ¬ UnaryAt scopes d p.2 v) ∧ U[v]? = unary[v]?) := by
  intro A
  induction A with
  | nil =>
    intro unary _ hl
    exact ⟨unary, rfl, hl, fun v _ => Or.inr ⟨by simp, rfl⟩⟩
  | cons p A ih =>
    intro unary hA hl
    obtain ⟨u1, e1, l1, g1⟩ := unaryStep_spec h hreal hl (hA p (by simp))
    obtain ⟨U, e2, l2, g2⟩ := ih u1 (fun q hq => hA q (by simp [hq])) l1
    refine ⟨U, ?_, l2, ?_⟩
    · rw [List.foldlM_cons, e1]
      exact e2
    · intro v hv
      rcases g2 v hv with ⟨q, hq, h3, h4⟩ | ⟨h3, h4⟩
      · exact Or.inl ⟨q, by simp [hq], h3, h4⟩
      · rcases g1 v hv with ⟨h5, h6⟩ | ⟨h5, h6⟩
        · exact Or.inl ⟨p, by simp, h5, by rw [h4, h6]⟩
        · refine Or.inr ⟨?_, by rw [h4, h6]⟩
          intro q hq
          rcases List.mem_cons.mp hq with hq | hq
          · subst hq
            exact h5
          · exact h3 q hq

theorem unaryTable_spec {scopes : List (List Nat)} {d : Decomposition} (h : WF scopes d) {real : List (List Nat)}
    (hreal : ∀ m k v, CopyOf d.varLists m k v → entry real m k = some v) :
    ∃ U, d.unaryTable real = some U ∧ ∀ v : Nat, v < d.numVars →
      (∃ f, UnaryAt scopes d f v ∧ U[v]? = some (some f)) ∨ ((∀ f, ¬ UnaryAt scopes d f v) ∧ U[v]? = some none) := by
  obtain ⟨U, e, l, g⟩ := unaryFold_spec h hreal d.facLists.zipIdx (List.replicate d.numVars none)
    (fun p hp => by rw [List.mem_zipIdx_iff_getElem?] at hp; exact hp) (by simp)
  refine ⟨U, e, ?_⟩
  intro v hv
  rcases g v hv with ⟨p, hp, h1, h2⟩ | ⟨h1, h2⟩
  · exact Or.inl ⟨p.2, h1, h2⟩
  · refine Or.inr ⟨?_, by rw [h2, List.getElem?_replicate, if_pos hv]⟩
    intro f hf
    obtain ⟨_, s, l', hfl⟩ := hf
    exact h1 (s :: l', f) (by rw [List.mem_zipIdx_iff_getElem?]; exact hfl) ⟨‹_›, s, l', hfl⟩

theorem mem_setInsert (x y : Nat) : ∀ l : List Nat, y ∈ setInsert x l ↔ y = x ∨ y ∈ l
  | [] => by simp [setInsert]
  | z :: l => by
    unfold setInsert
    split
    · simp
    · split
      · rename_i h
        subst h
        simp
      · simp only [List.mem_cons, mem_setInsert x y l]
        tauto

theorem setInsert_sorted (x : Nat) : ∀ l : List Nat, l.Pairwise (· < ·) → (setInsert x l).Pairwise (· < ·)
  | [], _ => by simp [setInsert]
  | z :: l, h => by
    rw [List.pairwise_cons] at h
    unfold setInsert
    split
    · rename_i hx
      rw [List.pairwise_cons, List.pairwise_cons]
      refine ⟨?_, h⟩
      intro a ha
      rcases List.mem_cons.mp ha with ha | ha
      · omega
      · have := h.1 a ha
        omega
    · split
      · rw [List.pairwise_cons]
        exact h
      · rw [List.pairwise_cons]
        refine ⟨?_, setInsert_sorted x l h.2⟩
        intro a ha
        rcases (mem_setInsert x a l).mp ha with ha | ha
        · omega
        · exact h.1 a ha

/-- The sets of the required copies. -/
structure Req (M : Nat) (req : List (List Nat)) (R : Nat → Nat → Prop) : Prop where
  len : req.length = M
  sorted : ∀ s ∈ req, s.Pairwise (· < ·)
  mem : ∀ (m : Nat) (s : List Nat), req[m]? = some s → ∀ k, k ∈ s ↔ R m k

theorem requireInsert_spec {M : Nat} {req : List (List Nat)} {R : Nat → Nat → Prop} (h : Req M req R) {m k : Nat} (hm : m < M) :
    ∃ req', requireInsert req m k = some req' ∧ Req M req' (fun m' k' => R m' k' ∨ (m' = m ∧ k' = k)) := by
  have hml : m < req.length := by rw [h.len]; exact hm
  obtain ⟨s, hs⟩ : ∃ s, req[m]? = some s := ⟨_, List.getElem?_eq_getElem hml⟩
  refine ⟨req.set m (setInsert k s), by simp only [requireInsert, hs], ?_⟩
  exact {
    len := by simp [h.len]
    sorted := by
      intro t ht
      rcases List.mem_or_eq_of_mem_set ht with ht | ht
      · exact h.sorted t ht
      · subst ht
        exact setInsert_sorted k s (h.sorted s (List.mem_of_getElem? hs))
    mem := by
      intro m' t ht k'
      by_cases e : m = m'
      · subst e
        rw [List.getElem?_set_self hml] at ht
        injection ht with ht
        subst ht
        rw [mem_setInsert, h.mem m s hs]
        simp only [true_and]
        exact or_comm
      · rw [List.getElem?_set_ne e] at ht
        rw [h.mem m' t ht]
        constructor
        · exact Or.inl
        · rintro (h | h)
          · exact h
          · exact absurd h.1.symm e }

theorem requireErase_spec {M : Nat} {req : List (List Nat)} {R : Nat → Nat → Prop} (h : Req M req R) {m k : Nat} (hm : m < M) :
    ∃ req', requireErase req m k = some req' ∧ Req M req' (fun m' k' => R m' k' ∧ ¬ (m' = m ∧ k' = k)) := by
  have hml : m < req.length := by rw [h.len]; exact hm
  obtain ⟨s, hs⟩ : ∃ s, req[m]? = some s := ⟨_, List.getElem?_eq_getElem hml⟩
  refine ⟨req.set m (s.filter (fun x => decide (x ≠ k))), by simp only [requireErase, hs], ?_⟩
  exact {
    len := by simp [h.len]
    sorted := by
      intro t ht
      rcases List.mem_or_eq_of_mem_set ht with ht | ht
      · exact h.sorted t ht
      · subst ht
        exact (h.sorted s (List.mem_of_getElem? hs)).filter _
    mem := by
      intro m' t ht k'
      by_cases e : m = m'
      · subst e
        rw [List.getElem?_set_self hml] at ht
        injection ht with ht
        subst ht
        rw [List.mem_filter, h.mem m s hs]
        simp
      · rw [List.getElem?_set_ne e] at ht
        rw [h.mem m' t ht]
        constructor
        · exact fun h => ⟨h, fun h' => e h'.1.symm⟩
        · exact fun h => h.1 }

theorem requiredFold_spec {M : Nat} : ∀ (l : List SubVariable) (req : List (List Nat)) (R : Nat → Nat → Prop), Req M req R → (∀ s ∈ l, s.model < M) →
    ∃ req', l.foldlM (fun req (s : SubVariable) => requireInsert req s.model s.id) req = some req' ∧
      Req M req' (fun m k => R m k ∨ (⟨m, k⟩ : SubVariable) ∈ l) := by
  intro l
  induction l with
  | nil =>
    intro req R h _
    exact ⟨req, rfl, by simpa using h⟩
  | cons s l ih =>
    intro req R h hl
    obtain ⟨r1, e1, h1⟩ := requireInsert_spec h (hl s (by simp)) (k := s.id)
    obtain ⟨r2, e2, h2⟩ := ih r1 _ h1 (fun t ht => hl t (by simp [ht]))
    refine ⟨r2, ?_, ⟨h2.len, h2.sorted, ?_⟩⟩
    · rw [List.foldlM_cons, e1]
      exact e2
    · intro m t ht k
      rw [h2.mem m t ht k, List.mem_cons]
      have : ((⟨m, k⟩ : SubVariable) = s) ↔ (m = s.model ∧ k = s.id) := by cases s; simp
      rw [this]
      tauto

theorem requiredOf_spec (d : Decomposition) {l : List SubVariable} (hl : ∀ s ∈ l, s.model < d.numModels) :
    ∃ req, d.requiredOf l = some req ∧ Req d.numModels req (fun m k => (⟨m, k⟩ : SubVariable) ∈ l) := by
  obtain ⟨req, e, h⟩ := requiredFold_spec l (List.replicate d.numModels []) (fun _ _ => False)
    ⟨by simp, by intro s hs; rw [List.eq_of_mem_replicate hs]; simp, by
      intro m s hs k
      rw [List.getElem?_replicate] at hs
      split at hs
      · injection hs with hs
        subst hs
        simp
      · exact absurd hs (by simp)⟩ hl
  refine ⟨req, e, ⟨h.len, h.sorted, ?_⟩⟩
  intro m s hs k
  rw [h.mem m s hs k]
  simp

theorem eraseIncluded_spec {M : Nat} : ∀ (l : List SubFactor) (req : List (List Nat)) (R : Nat → Nat → Prop), Req M req R →
    (∀ s ∈ l, s.model < M ∧ ∃ k, s.indices = [k]) →
    ∃ req', eraseIncluded req l = some req' ∧ Req M req' (fun m k => R m k ∧ ¬ HasUnary l m k) := by
  intro l
  induction l with
  | nil =>
    intro req R h _
    refine ⟨req, rfl, ⟨h.len, h.sorted, ?_⟩⟩
    intro m s hs k
    rw [h.mem m s hs k]
    simp [HasUnary]
  | cons s l ih =>
    intro req R h hl
    obtain ⟨hm, k0, hk⟩ := hl s (by simp)
    obtain ⟨r1, e1, h1⟩ := requireErase_spec h hm (k := k0)
    obtain ⟨r2, e2, h2⟩ := ih r1 _ h1 (fun t ht => hl t (by simp [ht]))
    refine ⟨r2, ?_, ⟨h2.len, h2.sorted, ?_⟩⟩
    · unfold eraseIncluded at e2 ⊢
      rw [List.foldlM_cons, hk]
      simp only [e1]
      exact e2
    · intro m t ht k
      rw [h2.mem m t ht k]
      unfold HasUnary
      constructor
      · rintro ⟨⟨a1, a2⟩, a3⟩
        refine ⟨a1, ?_⟩
        rintro ⟨t, ht, b1, b2⟩
        rcases List.mem_cons.mp ht with ht | ht
        · subst ht
          rw [hk] at b2
          simp only [List.cons.injEq, and_true] at b2
          exact a2 ⟨b1.symm, b2.symm⟩
        · exact a3 ⟨t, ht, b1, b2⟩
      · rintro ⟨a1, a2⟩
        refine ⟨⟨a1, ?_⟩, ?_⟩
        · rintro ⟨rfl, rfl⟩
          exact a2 ⟨s, by simp, rfl, hk⟩
        · rintro ⟨t, ht, b⟩
          exact a2 ⟨t, by simp [ht], b⟩

theorem mem_missing {M : Nat} {req : List (List Nat)} {R : Nat → Nat → Prop} (h : Req M req R) {m k : Nat} :
    (m, k) ∈ missing req ↔ m < M ∧ R m k := by
  unfold missing
  simp only [List.mem_flatMap, List.mem_map, Prod.exists, Prod.mk.injEq]
  constructor
  · rintro ⟨s, i, h1, k', h2, rfl, rfl⟩
    rw [List.mem_zipIdx_iff_getElem?] at h1
    simp only at h1
    refine ⟨?_, (h.mem _ _ h1 _).mp h2⟩
    rw [← h.len]
    exact (List.getElem?_eq_some_iff.mp h1).1
  · rintro ⟨h1, h2⟩
    have hml : m < req.length := by rw [h.len]; exact h1
    refine ⟨req[m], m, ?_, k, (h.mem m _ (List.getElem?_eq_getElem hml) k).mpr h2, rfl, rfl⟩
    rw [List.mem_zipIdx_iff_getElem?]
    exact List.getElem?_eq_getElem hml

theorem missing_nodup_aux : ∀ (req : List (List Nat)) (i : Nat), (∀ s ∈ req, s.Pairwise (· < ·)) →
    ((req.zipIdx i).flatMap (fun (p : List Nat × Nat) => p.1.map (fun k => (p.2, k)))).Nodup ∧
    ∀ q ∈ (req.zipIdx i).flatMap (fun (p : List Nat × Nat) => p.1.map (fun k => (p.2, k))), i ≤ q.1
  | [], _, _ => by simp
  | s :: req, i, h => by
    obtain ⟨h1, h2⟩ := missing_nodup_aux req (i + 1) (fun t ht => h t (by simp [ht]))
    rw [List.zipIdx_cons, List.flatMap_cons]
    constructor
    · rw [List.nodup_append]
      refine ⟨?_, h1, ?_⟩
      · refine List.Nodup.map ?_ ?_
        · intro a b e
          simp only [Prod.mk.injEq] at e
          exact e.2
        · exact (h s (by simp)).imp (fun hab => Nat.ne_of_lt hab)
      · rintro a ha b hb rfl
        obtain ⟨k, _, rfl⟩ := List.mem_map.mp ha
        have := h2 _ hb
        simp only at this
        omega
    · intro q hq
      rcases List.mem_append.mp hq with hq | hq
      · obtain ⟨k, _, rfl⟩ := List.mem_map.mp hq
        exact Nat.le_refl _
      · have := h2 q hq
        omega

theorem missing_nodup {M : Nat} {req : List (List Nat)} {R : Nat → Nat → Prop} (h : Req M req R) : (missing req).Nodup :=
  (missing_nodup_aux req 0 h.sorted).1

/-- What additions to a decomposition leave unchanged. -/
structure SameVars (d d' : Decomposition) : Prop where
  numVars : d'.numVars = d.numVars
  numFactors : d'.numFactors = d.numFactors
  numModels : d'.numModels = d.numModels
  numSubVars : d'.numSubVars = d.numSubVars
  varLists : d'.varLists = d.varLists

theorem SameVars.refl (d : Decomposition) : SameVars d d := ⟨rfl, rfl, rfl, rfl, rfl⟩

theorem SameVars.trans {a b c : Decomposition} (h : SameVars a b) (h' : SameVars b c) : SameVars a c :=
  ⟨h'.numVars.trans h.numVars, h'.numFactors.trans h.numFactors, h'.numModels.trans h.numModels, h'.numSubVars.trans h.numSubVars, h'.varLists.trans h.varLists⟩

theorem addMissing_spec {scopes : List (List Nat)} {f v : Nat} (hf : scopes[f]? = some [v]) : ∀ (todo : List (Nat × Nat)) (d : Decomposition), WF scopes d →
    (∀ p ∈ todo, p.1 < d.numModels ∧ CopyOf d.varLists p.1 p.2 v) →
    ∃ d', d.addMissing f todo = some d' ∧ WF scopes d' ∧ SameVars d d' ∧ d'.empty = d.empty ∧
      (∀ (f' : Nat) (l : List SubFactor), d.facLists[f']? = some l → ∃ ext, d'.facLists[f']? = some (l ++ ext) ∧
        ext.map place = if f' = f then todo.map (fun p => (p.1, [p.2])) else []) := by
  intro todo
  induction todo with
  | nil =>
    intro d h _
    exact ⟨d, rfl, h, SameVars.refl d, rfl, fun f' l hl => ⟨[], by simpa using hl, by simp⟩⟩
  | cons p todo ih =>
    intro d h ht
    obtain ⟨hp1, hp2⟩ := ht p (by simp)
    obtain ⟨k, l, hk, hl, e1, w1⟩ := addSubFactor_spec h (ids := [p.2]) hp1 hf (.cons hp2 .nil)
    obtain ⟨d2, e2, w2, s2, em2, g2⟩ := ih _ w1 (fun q hq => ht q (by simp [hq]))
    refine ⟨d2, ?_, w2, ⟨s2.numVars, s2.numFactors, s2.numModels, s2.numSubVars, s2.varLists⟩, em2, ?_⟩
    · unfold addMissing at e2 ⊢
      rw [List.foldlM_cons, e1]
      exact e2
    · intro f' l' hl'
      have hfl : f < d.facLists.length := (List.getElem?_eq_some_iff.mp hl).1
      by_cases e : f = f'
      · subst e
        rw [hl] at hl'
        injection hl' with hl'
        subst hl'
        obtain ⟨ext, h1, h2⟩ := g2 f _ (List.getElem?_set_self hfl)
        refine ⟨⟨p.1, some k, [p.2]⟩ :: ext, by rw [h1]; simp, ?_⟩
        rw [if_pos rfl] at h2 ⊢
        rw [List.map_cons, h2]
        rfl
      · obtain ⟨ext, h1, h2⟩ := g2 f' l' (by simp only; rw [List.getElem?_set_ne e]; exact hl')
        refine ⟨ext, h1, ?_⟩
        rw [if_neg (fun h => e h.symm)] at h2 ⊢
        exact h2

theorem addMissingEmpty_spec {scopes : List (List Nat)} {v : Nat} : ∀ (todo : List (Nat × Nat)) (d : Decomposition), WF scopes d →
    (∀ p ∈ todo, p.1 < d.numModels ∧ CopyOf d.varLists p.1 p.2 v) →
    ∃ d', d.addMissingEmpty v todo = some d' ∧ WF scopes d' ∧ SameVars d d' ∧ d'.facLists = d.facLists ∧
      (∀ key, ∃ ext, emptyAt key d'.empty = emptyAt key d.empty ++ ext ∧
        ext.map place = if key = [v] then todo.map (fun p => (p.1, [p.2])) else []) := by
  intro todo
  induction todo with
  | nil =>
    intro d h _
    exact ⟨d, rfl, h, SameVars.refl d, rfl, fun key => ⟨[], by simp, by simp⟩⟩
  | cons p todo ih =>
    intro d h ht
    obtain ⟨hp1, hp2⟩ := ht p (by simp)
    obtain ⟨k, hk, e1, w1⟩ := addEmptySubFactor_spec h (ids := [p.2]) (vars := [v]) hp1 (.cons hp2 .nil)
    obtain ⟨d2, e2, w2, s2, em2, g2⟩ := ih _ w1 (fun q hq => ht q (by simp [hq]))
    refine ⟨d2, ?_, w2, ⟨s2.numVars, s2.numFactors, s2.numModels, s2.numSubVars, s2.varLists⟩, em2, ?_⟩
    · unfold addMissingEmpty at e2 ⊢
      rw [List.foldlM_cons, e1]
      exact e2
    · intro key
      obtain ⟨ext, h1, h2⟩ := g2 key
      simp only [emptyAt_pushEmpty] at h1
      by_cases e : key = [v]
      · subst e
        rw [if_pos rfl] at h1 h2 ⊢
        exact ⟨⟨p.1, none, [p.2]⟩ :: ext, by rw [h1]; simp, by rw [List.map_cons, h2]; rfl⟩
      · rw [if_neg e] at h1 h2 ⊢
        exact ⟨ext, h1, h2⟩

theorem touchEmpty_keys (key : List Nat) (e : List (List Nat × List SubFactor)) (h : (e.map Prod.fst).Nodup) : ((touchEmpty key e).map Prod.fst).Nodup := by
  unfold touchEmpty
  cases hl : e.lookup key with
  | some l => exact h
  | none =>
    simp only [List.map_append, List.map_cons, List.map_nil]
    rw [List.nodup_append]
    refine ⟨h, by simp, ?_⟩
    rintro a ha b hb rfl
    simp only [List.mem_singleton] at hb
    subst hb
    obtain ⟨p, hp, rfl⟩ := List.mem_map.mp ha
    rw [List.lookup_eq_none_iff] at hl
    have := hl p hp
    simp at this

theorem mem_touchEmpty {key : List Nat} {e : List (List Nat × List SubFactor)} {p : List Nat × List SubFactor} (h : p ∈ touchEmpty key e) :
    p ∈ e ∨ p.2 = [] := by
  unfold touchEmpty at h
  cases hl : e.lookup key with
  | some l =>
    rw [hl] at h
    exact Or.inl h
  | none =>
    rw [hl] at h
    rcases List.mem_append.mp h with h | h
    · exact Or.inl h
    · simp only [List.mem_singleton] at h
      exact Or.inr (by rw [h])

theorem touchEmpty_flatMap (key : List Nat) (e : List (List Nat × List SubFactor)) : (touchEmpty key e).flatMap Prod.snd = e.flatMap Prod.snd := by
  unfold touchEmpty
  cases hl : e.lookup key with
  | some l => rfl
  | none => simp

theorem touch_wf {scopes : List (List Nat)} {d : Decomposition} (h : WF scopes d) (key : List Nat) : WF scopes { d with empty := touchEmpty key d.empty } where
  varsLen := h.varsLen
  facsLen := h.facsLen
  scopesLen := h.scopesLen
  subVarsLen := h.subVarsLen
  subFacsLen := h.subFacsLen
  numbered := h.numbered
  copies := h.copies
  emptyCopies := by
    intro key' l s h1 h2
    rcases mem_touchEmpty h1 with h1 | h1
    · exact h.emptyCopies key' l s h1 h2
    · simp only at h1
      subst h1
      simp at h2
  keys := touchEmpty_keys key d.empty h.keys
  idLt := h.idLt
  idOnce := h.idOnce
  count := by
    intro m n hn
    simp only [touchEmpty_flatMap]
    exact h.count m n hn

theorem _root_.OpenGM.Spec.Extends.refl (varLists : List (List SubVariable)) (v : Nat) (l : List SubFactor) : Extends varLists v l l :=
  ⟨[], by simp, by simp, by simp⟩

theorem copyModel_lt {scopes : List (List Nat)} {d : Decomposition} (h : WF scopes d) {m k v : Nat} (hc : CopyOf d.varLists m k v) : m < d.numModels := by
  obtain ⟨n, h1, _⟩ := (h.numbered.range m k).mp ⟨v, hc⟩
  rw [← h.subVarsLen]
  exact (List.getElem?_eq_some_iff.mp h1).1

/-- The effect of the loop body for a variable with several copies and a unary factor. -/
theorem completeVar_factor {scopes : List (List Nat)} {d : Decomposition} (h : WF scopes d) {unary : List (Option Nat)} {v f : Nat} {l : List SubVariable}
    (hl : d.varLists[v]? = some l) (hlen : 1 < l.length) (hu : unary[v]? = some (some f)) (hf : scopes[f]? = some [v]) :
    ∃ d' fl fl', d.completeVar unary v = some d' ∧ WF scopes d' ∧ SameVars d d' ∧ d'.empty = d.empty ∧
      d.facLists[f]? = some fl ∧ d'.facLists[f]? = some fl' ∧ Extends d.varLists v fl fl' ∧ Covered d.varLists fl' v ∧
      ∀ f' : Nat, f' ≠ f → d'.facLists[f']? = d.facLists[f']? := by
  have hfl : f < d.facLists.length := by
    rw [h.facsLen, ← h.scopesLen]
    exact (List.getElem?_eq_some_iff.mp hf).1
  obtain ⟨fl, hflist⟩ : ∃ fl, d.facLists[f]? = some fl := ⟨_, List.getElem?_eq_getElem hfl⟩
  obtain ⟨req, e1, r1⟩ := requiredOf_spec d (l := l) (fun s hs => copyModel_lt h ⟨l, hl, hs⟩)
  have hone : ∀ s ∈ fl, s.model < d.numModels ∧ ∃ k, s.indices = [k] := by
    intro s hs
    obtain ⟨a1, vars, a2, a3⟩ := h.copies f fl s hflist hs
    rw [hf] at a2
    injection a2 with a2
    subst a2
    refine ⟨a1, ?_⟩
    unfold CopiesOf at a3
    generalize s.indices = ids at a3
    cases a3 with
    | cons b1 b2 =>
      cases b2
      exact ⟨_, rfl⟩
  obtain ⟨req', e2, r2⟩ := eraseIncluded_spec fl req _ r1 hone
  have htodo : ∀ p ∈ missing req', p.1 < d.numModels ∧ CopyOf d.varLists p.1 p.2 v := by
    rintro ⟨m, k⟩ hp
    obtain ⟨a1, a2, _⟩ := (mem_missing r2).mp hp
    exact ⟨a1, l, hl, a2⟩
  obtain ⟨d', e3, w3, s3, em3, g3⟩ := addMissing_spec hf (missing req') d h htodo
  obtain ⟨ext, hx1, hx2⟩ := g3 f fl hflist
  rw [if_pos rfl] at hx2
  refine ⟨d', fl, fl ++ ext, ?_, w3, s3, em3, hflist, hx1, ⟨ext, rfl, ?_, ?_⟩, ?_, ?_⟩
  · simp only [completeVar, hl, if_pos hlen, e1, hu, hflist, e2, e3]
  · rw [hx2]
    refine (missing_nodup r2).map ?_
    rintro ⟨a, b⟩ ⟨a', b'⟩ e
    simp only [Prod.mk.injEq, List.cons.injEq, and_true] at e
    rw [e.1, e.2]
  · intro s hs
    have : place s ∈ ext.map place := List.mem_map_of_mem hs
    rw [hx2] at this
    obtain ⟨⟨m, k⟩, hp, hpe⟩ := List.mem_map.mp this
    simp only [place, Prod.mk.injEq] at hpe
    obtain ⟨a1, a2, a3⟩ := (mem_missing r2).mp hp
    rw [← hpe.1, ← hpe.2]
    exact ⟨k, rfl, ⟨l, hl, a2⟩, a3⟩
  · intro m k hc
    by_cases hh : HasUnary fl m k
    · obtain ⟨s, hs, hs'⟩ := hh
      exact ⟨s, by simp [hs], hs'⟩
    · have hm := copyModel_lt h hc
      obtain ⟨l', hl', hmem⟩ := hc
      rw [hl] at hl'
      injection hl' with hl'
      subst hl'
      have : (m, k) ∈ missing req' := (mem_missing r2).mpr ⟨hm, hmem, hh⟩
      have hp : (m, [k]) ∈ ext.map place := by
        rw [hx2]
        exact List.mem_map.mpr ⟨(m, k), this, rfl⟩
      obtain ⟨s, hs, hse⟩ := List.mem_map.mp hp
      simp only [place, Prod.mk.injEq] at hse
      exact ⟨s, by simp [hs], hse⟩
  · intro f' hne
    by_cases hlt : f' < d.facLists.length
    · obtain ⟨ext', hx3, hx4⟩ := g3 f' _ (List.getElem?_eq_getElem hlt)
      rw [if_neg hne, List.map_eq_nil_iff] at hx4
      rw [hx3, hx4, List.append_nil, List.getElem?_eq_getElem hlt]
    · have hlen' : d'.facLists.length = d.facLists.length := by rw [w3.facsLen, s3.numFactors, ← h.facsLen]
      rw [List.getElem?_eq_none (by rw [hlen']; omega), List.getElem?_eq_none (by omega)]

/-- The effect of the loop body for a variable with several copies and no unary factor. -/
theorem completeVar_empty {scopes : List (List Nat)} {d : Decomposition} (h : WF scopes d) {unary : List (Option Nat)} {v : Nat} {l : List SubVariable}
    (hl : d.varLists[v]? = some l) (hlen : 1 < l.length) (hu : unary[v]? = some none) :
    ∃ d', d.completeVar unary v = some d' ∧ WF scopes d' ∧ SameVars d d' ∧ d'.facLists = d.facLists ∧
      Extends d.varLists v (emptyAt [v] d.empty) (emptyAt [v] d'.empty) ∧ Covered d.varLists (emptyAt [v] d'.empty) v ∧
      ∀ key, key ≠ [v] → emptyAt key d'.empty = emptyAt key d.empty := by
  obtain ⟨req, e1, r1⟩ := requiredOf_spec d (l := l) (fun s hs => copyModel_lt h ⟨l, hl, hs⟩)
  have hone : ∀ s ∈ emptyAt [v] d.empty, s.model < d.numModels ∧ ∃ k, s.indices = [k] := by
    intro s hs
    obtain ⟨l', hl', hs⟩ := mem_emptyAt hs
    obtain ⟨a1, a3⟩ := h.emptyCopies [v] l' s hl' hs
    refine ⟨a1, ?_⟩
    unfold CopiesOf at a3
    generalize s.indices = ids at a3
    cases a3 with
    | cons b1 b2 =>
      cases b2
      exact ⟨_, rfl⟩
  obtain ⟨req', e2, r2⟩ := eraseIncluded_spec (emptyAt [v] d.empty) req _ r1 hone
  have htodo : ∀ p ∈ missing req', p.1 < d.numModels ∧ CopyOf d.varLists p.1 p.2 v := by
    rintro ⟨m, k⟩ hp
    obtain ⟨a1, a2, _⟩ := (mem_missing r2).mp hp
    exact ⟨a1, l, hl, a2⟩
  obtain ⟨d', e3, w3, s3, em3, g3⟩ := addMissingEmpty_spec (missing req') _ (touch_wf h [v]) htodo
  obtain ⟨ext, hx1, hx2⟩ := g3 [v]
  rw [if_pos rfl] at hx2
  simp only [emptyAt_touch] at hx1 g3
  refine ⟨d', ?_, w3, ⟨s3.numVars, s3.numFactors, s3.numModels, s3.numSubVars, s3.varLists⟩, em3, ⟨ext, hx1, ?_, ?_⟩, ?_, ?_⟩
  · simp only [completeVar, hl, if_pos hlen, e1, hu, e2, e3]
  · rw [hx2]
    refine (missing_nodup r2).map ?_
    rintro ⟨a, b⟩ ⟨a', b'⟩ e
    simp only [Prod.mk.injEq, List.cons.injEq, and_true] at e
    rw [e.1, e.2]
  · intro s hs
    have : place s ∈ ext.map place := List.mem_map_of_mem hs
    rw [hx2] at this
    obtain ⟨⟨m, k⟩, hp, hpe⟩ := List.mem_map.mp this
    simp only [place, Prod.mk.injEq] at hpe
    obtain ⟨a1, a2, a3⟩ := (mem_missing r2).mp hp
    rw [← hpe.1, ← hpe.2]
    exact ⟨k, rfl, ⟨l, hl, a2⟩, a3⟩
  · intro m k hc
    rw [hx1]
    by_cases hh : HasUnary (emptyAt [v] d.empty) m k
    · obtain ⟨s, hs, hs'⟩ := hh
      exact ⟨s, by simp [hs], hs'⟩
    · have hm := copyModel_lt h hc
      obtain ⟨l', hl', hmem⟩ := hc
      rw [hl] at hl'
      injection hl' with hl'
      subst hl'
      have : (m, k) ∈ missing req' := (mem_missing r2).mpr ⟨hm, hmem, hh⟩
      have hp : (m, [k]) ∈ ext.map place := by
        rw [hx2]
        exact List.mem_map.mpr ⟨(m, k), this, rfl⟩
      obtain ⟨s, hs, hse⟩ := List.mem_map.mp hp
      simp only [place, Prod.mk.injEq] at hse
      exact ⟨s, by simp [hs], hse⟩
  · intro key hne
    obtain ⟨ext', hx3, hx4⟩ := g3 key
    rw [if_neg hne, List.map_eq_nil_iff] at hx4
    rw [hx3, hx4, List.append_nil]

/-- Variable `v` has several copies. -/
def Multi (d : Decomposition) (v : Nat) : Prop := ∃ l, d.varLists[v]? = some l ∧ 1 < l.length

theorem completeFold_spec {scopes : List (List Nat)} {unary : List (Option Nat)} {n : Nat}
    (hU : ∀ v : Nat, v < n → (∃ f : Nat, unary[v]? = some (some f) ∧ scopes[f]? = some [v]) ∨ unary[v]? = some none) :
    ∀ (vs : List Nat) (d : Decomposition), vs.Nodup → (∀ v ∈ vs, v < n) → d.numVars = n → WF scopes d →
      ∃ d', vs.foldlM (completeVar unary) d = some d' ∧ WF scopes d' ∧ SameVars d d' ∧
        (∀ v ∈ vs, Multi d v → ∀ f : Nat, unary[v]? = some (some f) → ∃ fl fl', d.facLists[f]? = some fl ∧ d'.facLists[f]? = some fl' ∧
          Extends d.varLists v fl fl' ∧ Covered d.varLists fl' v) ∧
        (∀ v ∈ vs, Multi d v → unary[v]? = some none → Extends d.varLists v (emptyAt [v] d.empty) (emptyAt [v] d'.empty) ∧ Covered d.varLists (emptyAt [v] d'.empty) v) ∧
        (∀ f : Nat, (∀ v ∈ vs, Multi d v → unary[v]? ≠ some (some f)) → d'.facLists[f]? = d.facLists[f]?) ∧
        (∀ key, (∀ v ∈ vs, Multi d v → unary[v]? = some none → key ≠ [v]) → emptyAt key d'.empty = emptyAt key d.empty) := by
  intro vs
  induction vs with
  | nil =>
    intro d _ _ _ h
    exact ⟨d, rfl, h, SameVars.refl d, by simp, by simp, fun _ _ => rfl, fun _ _ => rfl⟩
  | cons v vs ih =>
    intro d hnd hlt hn h
    rw [List.nodup_cons] at hnd
    have hv : v < n := hlt v (by simp)
    have hvl : v < d.varLists.length := by rw [h.varsLen, hn]; exact hv
    obtain ⟨l, hl⟩ : ∃ l, d.varLists[v]? = some l := ⟨_, List.getElem?_eq_getElem hvl⟩
    have hdone : ∀ d1, WF scopes d1 → SameVars d d1 → ∃ d', vs.foldlM (completeVar unary) d1 = some d' ∧ WF scopes d' ∧ SameVars d1 d' ∧
        (∀ v ∈ vs, Multi d v → ∀ f : Nat, unary[v]? = some (some f) → ∃ fl fl', d1.facLists[f]? = some fl ∧ d'.facLists[f]? = some fl' ∧
          Extends d.varLists v fl fl' ∧ Covered d.varLists fl' v) ∧
        (∀ v ∈ vs, Multi d v → unary[v]? = some none → Extends d.varLists v (emptyAt [v] d1.empty) (emptyAt [v] d'.empty) ∧ Covered d.varLists (emptyAt [v] d'.empty) v) ∧
        (∀ f : Nat, (∀ v ∈ vs, Multi d v → unary[v]? ≠ some (some f)) → d'.facLists[f]? = d1.facLists[f]?) ∧
        (∀ key, (∀ v ∈ vs, Multi d v → unary[v]? = some none → key ≠ [v]) → emptyAt key d'.empty = emptyAt key d1.empty) := by
      intro d1 w1 s1
      have hM : ∀ v, Multi d v ↔ Multi d1 v := by
        intro v
        unfold Multi
        rw [s1.varLists]
      obtain ⟨d', a1, a2, a3, a4, a5, a6, a7⟩ := ih d1 hnd.2 (fun w hw => hlt w (by simp [hw])) (by rw [s1.numVars]; exact hn) w1
      rw [s1.varLists] at a4 a5
      simp only [← hM] at a4 a5 a6 a7
      exact ⟨d', a1, a2, a3, a4, a5, a6, a7⟩
    by_cases hlen : 1 < l.length
    · rcases hU v hv with ⟨f, hu, hf⟩ | hu
      · obtain ⟨d1, fl, fl', e1, w1, s1, em1, g1, g2, g3, g4, g5⟩ := completeVar_factor h hl hlen hu hf
        obtain ⟨d', a1, a2, a3, a4, a5, a6, a7⟩ := hdone d1 w1 s1
        refine ⟨d', by rw [List.foldlM_cons, e1]; exact a1, a2, s1.trans a3, ?_, ?_, ?_, ?_⟩
        · intro w hw hM f' hf'
          rcases List.mem_cons.mp hw with hw | hw
          · subst hw
            rw [hu] at hf'
            simp only [Option.some.injEq] at hf'
            subst hf'
            refine ⟨fl, fl', g1, ?_, g3, g4⟩
            rw [a6 f ?_]
            · exact g2
            · intro w' hw' _ hu'
              rcases hU w' (hlt w' (by simp [hw'])) with ⟨f', b1, b2⟩ | b1
              · rw [hu'] at b1
                simp only [Option.some.injEq] at b1
                subst b1
                rw [hf] at b2
                simp only [Option.some.injEq, List.cons.injEq, and_true] at b2
                subst b2
                exact hnd.1 hw'
              · rw [hu'] at b1
                simp at b1
          · obtain ⟨fl2, fl2', b1, b2, b3, b4⟩ := a4 w hw hM f' hf'
            refine ⟨fl2, fl2', ?_, b2, b3, b4⟩
            rw [← b1, g5]
            rintro rfl
            rcases hU w (hlt w (by simp [hw])) with ⟨f'', c1, c2⟩ | c1
            · rw [hf'] at c1
              simp only [Option.some.injEq] at c1
              subst c1
              rw [hf] at c2
              simp only [Option.some.injEq, List.cons.injEq, and_true] at c2
              subst c2
              exact hnd.1 hw
            · rw [hf'] at c1
              simp at c1
        · intro w hw hM hu'
          rcases List.mem_cons.mp hw with hw | hw
          · subst hw
            rw [hu] at hu'
            simp at hu'
          · have := a5 w hw hM hu'
            rw [em1] at this
            exact this
        · intro f' hne
          rw [a6 f' (fun w hw => hne w (by simp [hw])), g5]
          rintro rfl
          exact hne v (by simp) ⟨l, hl, hlen⟩ hu
        · intro key hne
          rw [a7 key (fun w hw => hne w (by simp [hw])), em1]
      · obtain ⟨d1, e1, w1, s1, fm1, g3, g4, g5⟩ := completeVar_empty h hl hlen hu
        obtain ⟨d', a1, a2, a3, a4, a5, a6, a7⟩ := hdone d1 w1 s1
        refine ⟨d', by rw [List.foldlM_cons, e1]; exact a1, a2, s1.trans a3, ?_, ?_, ?_, ?_⟩
        · intro w hw hM f' hf'
          rcases List.mem_cons.mp hw with hw | hw
          · subst hw
            rw [hu] at hf'
            simp at hf'
          · have := a4 w hw hM f' hf'
            rw [fm1] at this
            exact this
        · intro w hw hM hu'
          rcases List.mem_cons.mp hw with hw | hw
          · subst hw
            rw [a7 [w] ?_]
            · exact ⟨g3, g4⟩
            · intro w' hw' _ _ e
              simp only [List.cons.injEq, and_true] at e
              subst e
              exact hnd.1 hw'
          · have := a5 w hw hM hu'
            rw [g5 [w] ?_] at this
            · exact this
            · intro e
              simp only [List.cons.injEq, and_true] at e
              subst e
              exact hnd.1 (by assumption)
        · intro f' hne
          rw [a6 f' (fun w hw => hne w (by simp [hw])), fm1]
        · intro key hne
          rw [a7 key (fun w hw => hne w (by simp [hw])), g5]
          exact hne v (by simp) ⟨l, hl, hlen⟩ hu
    · have hnot : ¬ Multi d v := by
        rintro ⟨l', h1, h2⟩
        rw [hl] at h1
        injection h1 with h1
        subst h1
        exact hlen h2
      obtain ⟨d', a1, a2, a3, a4, a5, a6, a7⟩ := hdone d h (SameVars.refl d)
      refine ⟨d', ?_, a2, a3, ?_, ?_, ?_, ?_⟩
      · have e1 : d.completeVar unary v = some d := by simp only [completeVar, hl, if_neg hlen]
        rw [List.foldlM_cons, e1]
        exact a1
      · intro w hw hM
        rcases List.mem_cons.mp hw with hw | hw
        · subst hw
          exact absurd hM hnot
        · exact a4 w hw hM
      · intro w hw hM
        rcases List.mem_cons.mp hw with hw | hw
        · subst hw
          exact absurd hM hnot
        · exact a5 w hw hM
      · intro f hne
        exact a6 f (fun w hw => hne w (by simp [hw]))
      · intro key hne
        exact a7 key (fun w hw => hne w (by simp [hw]))

/-- graphicalmodeldecomposition.hxx 200-275 -/
theorem complete_spec {scopes : List (List Nat)} {d : Decomposition} (h : WF scopes d) :
    ∃ d', d.complete = some d' ∧ WF scopes d' ∧ SameVars d d' ∧
      (∀ v, Multi d v → (∃ f, UnaryAt scopes d f v) →
        ∃ f fl fl', UnaryAt scopes d f v ∧ d.facLists[f]? = some fl ∧ d'.facLists[f]? = some fl' ∧ Extends d.varLists v fl fl' ∧ Covered d.varLists fl' v ∧
          ∀ f', f' ≠ f → scopes[f']? = some [v] → d'.facLists[f']? = d.facLists[f']?) ∧
      (∀ v, Multi d v → (∀ f, ¬ UnaryAt scopes d f v) →
        Extends d.varLists v (emptyAt [v] d.empty) (emptyAt [v] d'.empty) ∧ Covered d.varLists (emptyAt [v] d'.empty) v) ∧
      (∀ f : Nat, (∀ v, Multi d v → ¬ UnaryAt scopes d f v) → d'.facLists[f]? = d.facLists[f]?) ∧
      (∀ key, (∀ v, Multi d v → (∀ f, ¬ UnaryAt scopes d f v) → key ≠ [v]) → emptyAt key d'.empty = emptyAt key d.empty) := by
  obtain ⟨real, e1, g1⟩ := realTable_spec h
  obtain ⟨U, e2, g2⟩ := unaryTable_spec h g1
  have hMlt : ∀ v, Multi d v → v < d.numVars := by
    rintro v ⟨l, hl, _⟩
    rw [← h.varsLen]
    exact (List.getElem?_eq_some_iff.mp hl).1
  obtain ⟨d', e3, w3, s3, a4, a5, a6, a7⟩ := completeFold_spec (scopes := scopes) (unary := U) (n := d.numVars)
    (by
      intro v hv
      rcases g2 v hv with ⟨f, b1, b2⟩ | ⟨b1, b2⟩
      · exact Or.inl ⟨f, b2, b1.1⟩
      · exact Or.inr b2) (List.range d.numVars) d List.nodup_range (fun v hv => List.mem_range.mp hv) rfl h
  refine ⟨d', by simp only [complete, e1, e2, e3], w3, s3, ?_, ?_, ?_, ?_⟩
  · rintro v hM ⟨f0, hf0⟩
    rcases g2 v (hMlt v hM) with ⟨f, b1, b2⟩ | ⟨b1, b2⟩
    · obtain ⟨fl, fl', c1, c2, c3, c4⟩ := a4 v (List.mem_range.mpr (hMlt v hM)) hM f b2
      refine ⟨f, fl, fl', b1, c1, c2, c3, c4, ?_⟩
      intro f' hne hs
      apply a6
      intro w hw hMw hu
      rcases g2 w (hMlt w hMw) with ⟨f2, d1, d2⟩ | ⟨d1, d2⟩
      · rw [hu] at d2
        simp only [Option.some.injEq] at d2
        subst d2
        have := d1.1
        rw [hs] at this
        simp only [Option.some.injEq, List.cons.injEq, and_true] at this
        subst this
        rw [hu] at b2
        simp only [Option.some.injEq] at b2
        exact hne b2
      · rw [hu] at d2
        simp at d2
    · exact absurd hf0 (b1 f0)
  · intro v hM hno
    rcases g2 v (hMlt v hM) with ⟨f, b1, b2⟩ | ⟨b1, b2⟩
    · exact absurd b1 (hno f)
    · exact a5 v (List.mem_range.mpr (hMlt v hM)) hM b2
  · intro f hno
    apply a6
    intro v hv hM hu
    rcases g2 v (hMlt v hM) with ⟨f', b1, b2⟩ | ⟨b1, b2⟩
    · rw [hu] at b2
      simp only [Option.some.injEq] at b2
      subst b2
      exact hno v hM b1
    · rw [hu] at b2
      simp at b2
  · intro key hno
    apply a7
    intro v hv hM hu
    rcases g2 v (hMlt v hM) with ⟨f', b1, b2⟩ | ⟨b1, b2⟩
    · rw [hu] at b2
      simp at b2
    · exact hno v hM b1

end Decomposition
end OpenGM
