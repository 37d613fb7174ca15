import Verif.Lemmas.Decomposition
/-
GraphicalModelDecomposition::reorder.
-/
namespace OpenGM
namespace Decomposition
open Spec

theorem mapM_some {α β : Type} {f : α → Option β} {g : α → β} : ∀ {l : List α}, (∀ x ∈ l, f x = some (g x)) → l.mapM f = some (l.map g)
  | [], _ => rfl
  | x :: l, h => by
    rw [List.mapM_cons, h x (by simp), mapM_some (fun y hy => h y (by simp [hy]))]
    rfl

/-- The numbers of the copies of submodel `m`, in the order of the list. -/
def idsOf (m : Nat) (A : List SubVariable) : List Nat := (A.filter (fun s => s.model = m)).map (·.id)

theorem mem_idsOf {m k : Nat} {A : List SubVariable} : k ∈ idsOf m A ↔ (⟨m, k⟩ : SubVariable) ∈ A := by
  unfold idsOf
  simp only [List.mem_map, List.mem_filter, decide_eq_true_eq]
  constructor
  · rintro ⟨s, ⟨h1, h2⟩, h3⟩
    rw [← h2, ← h3]
    exact h1
  · intro h
    exact ⟨_, ⟨h, rfl⟩, rfl⟩

theorem idsOf_append (m : Nat) (A B : List SubVariable) : idsOf m (A ++ B) = idsOf m A ++ idsOf m B := by
  simp [idsOf]

theorem idsOf_cons (s : SubVariable) (B : List SubVariable) : idsOf s.model (s :: B) = s.id :: idsOf s.model B := by
  simp [idsOf]

theorem idsOf_nodup {A : List SubVariable} (h : A.Nodup) (m : Nat) : (idsOf m A).Nodup := by
  unfold idsOf
  refine List.Nodup.map_on ?_ (h.filter _)
  intro s hs t ht e
  simp only [List.mem_filter, decide_eq_true_eq] at hs ht
  cases s; cases t
  simp_all

/-- The new number of a copy. -/
def ren (A : List SubVariable) (s : SubVariable) : SubVariable := ⟨s.model, (idsOf s.model A).idxOf s.id⟩

theorem ren_id {P R : List SubVariable} {s : SubVariable} (h : (P ++ s :: R).Nodup) : (ren (P ++ s :: R) s).id = (idsOf s.model P).length := by
  have hs : s ∉ P := by
    intro hp
    exact (List.nodup_append.mp h).2.2 s hp s (by simp) rfl
  unfold ren
  simp only
  rw [idsOf_append, idsOf_cons, List.idxOf_append_of_notMem (by rw [mem_idsOf]; exact hs), List.idxOf_cons_self]
  rfl

theorem setEntry_spec {table : List (List Nat)} {counts : List Nat} (hs : table.map List.length = counts) {m k n : Nat} (hm : counts[m]? = some n) (hk : k < n)
    (x : Nat) : ∃ T, setEntry table m k x = some T ∧ T.map List.length = counts ∧
      ∀ m' k', entry T m' k' = if m' = m ∧ k' = k then some x else entry table m' k' := by
  subst hs
  rw [List.getElem?_map, Option.map_eq_some_iff] at hm
  obtain ⟨row, hrow, hn⟩ := hm
  subst hn
  have hml : m < table.length := (List.getElem?_eq_some_iff.mp hrow).1
  refine ⟨table.set m (row.set k x), by simp only [setEntry, hrow, if_pos hk], ?_, ?_⟩
  · apply List.ext_getElem?
    intro i
    by_cases e : m = i
    · subst e
      rw [List.getElem?_map, List.getElem?_set_self hml, List.getElem?_map, hrow]
      simp
    · rw [List.getElem?_map, List.getElem?_set_ne e, List.getElem?_map]
  · intro m' k'
    unfold entry
    by_cases e : m = m'
    · subst e
      simp only [List.getElem?_set_self hml, hrow, true_and]
      by_cases e2 : k = k'
      · subst e2
        rw [List.getElem?_set_self hk, if_pos rfl]
      · rw [List.getElem?_set_ne e2, if_neg (fun h => e2 h.symm)]
    · rw [List.getElem?_set_ne e, if_neg (fun h => e h.1.symm)]

theorem zeroTable_shape (d : Decomposition) : d.zeroTable.map List.length = d.numSubVars := by
  unfold zeroTable
  rw [List.map_map]
  conv_rhs => rw [← List.map_id d.numSubVars]
  apply List.map_congr_left
  intro n _
  simp

/-- The state of the renumbering after the copies `P`. -/
structure Renum (A : List SubVariable) (counts : List Nat) (P : List SubVariable) (count : List Nat) (map : List (List Nat)) : Prop where
  shape : map.map List.length = counts
  len : count.length = counts.length
  count : ∀ (m c : Nat), count[m]? = some c → c = (idsOf m P).length
  map : ∀ s ∈ P, entry map s.model s.id = some (ren A s).id

theorem reorderList_spec {A : List SubVariable} {counts : List Nat} (hA : A.Nodup) (hr : ∀ s ∈ A, ∃ n, counts[s.model]? = some n ∧ s.id < n) :
    ∀ (l P R : List SubVariable) (count : List Nat) (map : List (List Nat)), A = P ++ l ++ R → Renum A counts P count map →
      ∃ count' map', reorderList l count map = some (l.map (ren A), count', map') ∧ Renum A counts (P ++ l) count' map' := by
  intro l
  induction l with
  | nil =>
    intro P R count map _ h
    exact ⟨count, map, rfl, by simpa using h⟩
  | cons s rest ih =>
    intro P R count map hAP h
    have hAP' : A = P ++ s :: (rest ++ R) := by rw [hAP]; simp
    obtain ⟨n, hn, hk⟩ := hr s (by rw [hAP']; simp)
    have hml : s.model < count.length := by
      rw [h.len]
      exact (List.getElem?_eq_some_iff.mp hn).1
    obtain ⟨c, hc⟩ : ∃ c, count[s.model]? = some c := ⟨_, List.getElem?_eq_getElem hml⟩
    have hce := h.count _ _ hc
    have hren : (ren A s).id = c := by
      rw [hce]
      rw [hAP'] at hA ⊢
      exact ren_id hA
    obtain ⟨map1, e1, s1, g1⟩ := setEntry_spec h.shape hn hk c
    have h1 : Renum A counts (P ++ [s]) (count.set s.model (c + 1)) map1 := {
      shape := s1
      len := by simp [h.len]
      count := by
        intro m c' hc'
        rw [idsOf_append]
        by_cases e : s.model = m
        · subst e
          rw [List.getElem?_set_self hml] at hc'
          injection hc' with hc'
          rw [← hc', hce]
          simp [idsOf]
        · rw [List.getElem?_set_ne e] at hc'
          rw [h.count m c' hc']
          simp [idsOf, e]
      map := by
        intro t ht
        rw [g1]
        rcases List.mem_append.mp ht with ht | ht
        · have ht' := ht
          rw [if_neg, h.map t ht']
          rintro ⟨h1, h2⟩
          have hts : t = s := by cases t; cases s; simp_all
          rw [hts] at ht
          rw [hAP'] at hA
          exact (List.nodup_append.mp hA).2.2 s ht s (by simp) rfl
        · simp only [List.mem_singleton] at ht
          subst ht
          rw [if_pos ⟨rfl, rfl⟩, hren] }
    obtain ⟨count', map', e2, h2⟩ := ih (P ++ [s]) R _ _ (by rw [hAP]; simp) h1
    refine ⟨count', map', ?_, by simpa using h2⟩
    simp only [reorderList, hc, e1, e2]
    have : (⟨s.model, c⟩ : SubVariable) = ren A s := by
      rw [← hren]
      rfl
    rw [this]
    rfl

theorem reorderLists_spec {A : List SubVariable} {counts : List Nat} (hA : A.Nodup) (hr : ∀ s ∈ A, ∃ n, counts[s.model]? = some n ∧ s.id < n) :
    ∀ (L : List (List SubVariable)) (P : List SubVariable) (count : List Nat) (map : List (List Nat)), A = P ++ L.flatten → Renum A counts P count map →
      ∃ count' map', reorderLists L count map = some (L.map (List.map (ren A)), count', map') ∧ Renum A counts (P ++ L.flatten) count' map' := by
  intro L
  induction L with
  | nil =>
    intro P count map _ h
    exact ⟨count, map, rfl, by simpa using h⟩
  | cons l L ih =>
    intro P count map hAP h
    obtain ⟨count1, map1, e1, h1⟩ := reorderList_spec hA hr l P L.flatten count map (by rw [hAP]; simp) h
    obtain ⟨count2, map2, e2, h2⟩ := ih (P ++ l) count1 map1 (by rw [hAP]; simp) h1
    refine ⟨count2, map2, ?_, by simpa using h2⟩
    simp only [reorderLists, e1, e2]
    rfl

theorem flatten_nodup {varLists : List (List SubVariable)} {counts : List Nat} (h : Numbered varLists counts) : varLists.flatten.Nodup := by
  rw [List.nodup_flatten]
  refine ⟨h.once, ?_⟩
  rw [List.pairwise_iff_getElem]
  intro i j hi hj hij s hs ht
  have := h.unique s.model s.id i j ⟨varLists[i], List.getElem?_eq_getElem hi, hs⟩ ⟨varLists[j], List.getElem?_eq_getElem hj, ht⟩
  omega

theorem mem_flatten_iff {varLists : List (List SubVariable)} {m k : Nat} : (⟨m, k⟩ : SubVariable) ∈ varLists.flatten ↔ ∃ v, CopyOf varLists m k v := by
  rw [List.mem_flatten]
  constructor
  · rintro ⟨l, hl, hs⟩
    obtain ⟨v, hv⟩ := List.mem_iff_getElem?.mp hl
    exact ⟨v, l, hv, hs⟩
  · rintro ⟨v, l, hl, hs⟩
    exact ⟨l, List.mem_of_getElem? hl, hs⟩

/-- The renumbering. -/
def newId (d : Decomposition) (m k : Nat) : Nat := (idsOf m d.varLists.flatten).idxOf k

theorem map_idxOf_self {l : List Nat} (h : l.Nodup) : l.map (fun k => l.idxOf k) = List.range l.length := by
  apply List.ext_getElem
  · simp
  · intro i h1 h2
    simp only [List.getElem_map, List.getElem_range]
    exact h.idxOf_getElem i (by simpa using h1)

theorem idsOf_perm {varLists : List (List SubVariable)} {counts : List Nat} (h : Numbered varLists counts) {m n : Nat} (hn : counts[m]? = some n) :
    (idsOf m varLists.flatten).Perm (List.range n) := by
  rw [List.perm_ext_iff_of_nodup (idsOf_nodup (flatten_nodup h) m) List.nodup_range]
  intro k
  rw [mem_idsOf, mem_flatten_iff, h.range, List.mem_range]
  constructor
  · rintro ⟨n', h1, h2⟩
    rw [hn] at h1
    injection h1 with h1
    omega
  · intro hk
    exact ⟨n, hn, hk⟩

theorem newId_renumbers {d : Decomposition} (h : Numbered d.varLists d.numSubVars) {m n : Nat} (hn : d.numSubVars[m]? = some n) :
    Renumbers n (d.newId m) where
  lt := by
    intro k hk
    have hp := idsOf_perm h hn
    have : k ∈ idsOf m d.varLists.flatten := by rw [hp.mem_iff, List.mem_range]; exact hk
    have h2 := List.idxOf_lt_length_of_mem this
    rw [hp.length_eq, List.length_range] at h2
    exact h2
  inj := by
    intro k k' hk hk' e
    have hp := idsOf_perm h hn
    have h1 : k ∈ idsOf m d.varLists.flatten := by rw [hp.mem_iff, List.mem_range]; exact hk
    exact (List.idxOf_inj h1).mp e

theorem idsOf_map_ren (m : Nat) (A B : List SubVariable) : idsOf m (B.map (ren A)) = (idsOf m B).map (fun k => (idsOf m A).idxOf k) := by
  unfold idsOf
  induction B with
  | nil => rfl
  | cons s B ih =>
    by_cases e : s.model = m
    · subst e
      simp only [List.map_cons, ren, decide_true, List.filter_cons_of_pos] at ih ⊢
      rw [ih]
      rfl
    · have e1 : (decide ((ren A s).model = m)) = false := by simp [ren, e]
      have e2 : (decide (s.model = m)) = false := by simp [e]
      simp only [List.map_cons, List.filter_cons, e1, e2]
      exact ih

/-- Translate a sub-factor. -/
def renFactor (d : Decomposition) (s : SubFactor) : SubFactor := { s with indices := s.indices.map (d.newId s.model) }

theorem copyOf_ren {d : Decomposition} {m k' v : Nat} :
    CopyOf (d.varLists.map (List.map (ren d.varLists.flatten))) m k' v ↔ ∃ k, CopyOf d.varLists m k v ∧ k' = d.newId m k := by
  unfold CopyOf
  simp only [List.getElem?_map, Option.map_eq_some_iff]
  constructor
  · rintro ⟨l', ⟨l, h1, rfl⟩, h2⟩
    obtain ⟨s, h3, h4⟩ := List.mem_map.mp h2
    simp only [ren, SubVariable.mk.injEq] at h4
    obtain ⟨h4, h5⟩ := h4
    subst h4
    exact ⟨s.id, ⟨l, h1, h3⟩, h5.symm⟩
  · rintro ⟨k, ⟨l, h1, h2⟩, rfl⟩
    exact ⟨_, ⟨l, h1, rfl⟩, List.mem_map.mpr ⟨_, h2, rfl⟩⟩

theorem copiesOf_ren {d : Decomposition} {m : Nat} {ids vars : List Nat} (h : CopiesOf d.varLists m ids vars) :
    CopiesOf (d.varLists.map (List.map (ren d.varLists.flatten))) m (ids.map (d.newId m)) vars := by
  unfold CopiesOf at h ⊢
  rw [List.forall₂_map_left_iff]
  exact h.imp (fun k v hkv => copyOf_ren.mpr ⟨k, hkv, rfl⟩)

theorem reorder_eq {scopes : List (List Nat)} {d : Decomposition} (h : WF scopes d) :
    d.reorder = some { d with
      varLists := d.varLists.map (List.map (ren d.varLists.flatten))
      facLists := d.facLists.map (List.map d.renFactor)
      empty := d.empty.map (fun p => (p.1, p.2.map d.renFactor)) } := by
  have hA := flatten_nodup h.numbered
  have hr : ∀ s ∈ d.varLists.flatten, ∃ n, d.numSubVars[s.model]? = some n ∧ s.id < n := by
    intro s hs
    exact (h.numbered.range s.model s.id).mp (mem_flatten_iff.mp hs)
  obtain ⟨count, map, e, hI⟩ := reorderLists_spec hA hr d.varLists [] (List.replicate d.numModels 0) d.zeroTable rfl {
    shape := d.zeroTable_shape
    len := by simp [h.subVarsLen]
    count := by
      intro m c hc
      rw [List.getElem?_replicate] at hc
      split at hc
      · injection hc with hc
        simp [idsOf, ← hc]
      · exact absurd hc (by simp)
    map := by simp }
  have hfac : ∀ (s : SubFactor) (vars : List Nat), CopiesOf d.varLists s.model s.indices vars → reorderFactor map s = some (d.renFactor s) := by
    intro s vars hc
    unfold reorderFactor renFactor
    rw [mapM_some (g := d.newId s.model)]
    · rfl
    · intro k hk
      obtain ⟨v, hv⟩ : ∃ v, CopyOf d.varLists s.model k v := by
        unfold CopiesOf at hc
        generalize s.indices = ids at hc hk
        induction hc with
        | nil => simp at hk
        | cons h1 _ ih =>
          rcases List.mem_cons.mp hk with hk | hk
          · subst hk
            exact ⟨_, h1⟩
          · exact ih hk
      exact hI.map ⟨s.model, k⟩ (by simpa using mem_flatten_iff.mpr ⟨v, hv⟩)
  have e2 : d.facLists.mapM (fun l => l.mapM (reorderFactor map)) = some (d.facLists.map (List.map d.renFactor)) := by
    apply mapM_some
    intro l hl
    apply mapM_some
    intro s hs
    obtain ⟨f, hf⟩ := List.mem_iff_getElem?.mp hl
    obtain ⟨_, vars, _, hc⟩ := h.copies f l s hf hs
    exact hfac s vars hc
  have e3 : d.empty.mapM (fun (p : List Nat × List SubFactor) => (p.2.mapM (reorderFactor map)).map (fun l => (p.1, l))) =
      some (d.empty.map (fun p => (p.1, p.2.map d.renFactor))) := by
    apply mapM_some
    intro p hp
    rw [mapM_some (g := d.renFactor)]
    · rfl
    · intro s hs
      exact hfac s p.1 (h.emptyCopies p.1 p.2 s hp hs).2
  unfold reorder
  rw [e]
  simp only [e2, e3]

theorem reorder_wf {scopes : List (List Nat)} {d : Decomposition} (h : WF scopes d) : WF scopes { d with
      varLists := d.varLists.map (List.map (ren d.varLists.flatten))
      facLists := d.facLists.map (List.map d.renFactor)
      empty := d.empty.map (fun p => (p.1, p.2.map d.renFactor)) } where
  varsLen := by simp [h.varsLen]
  facsLen := by simp [h.facsLen]
  scopesLen := h.scopesLen
  subVarsLen := h.subVarsLen
  subFacsLen := h.subFacsLen
  numbered := {
    range := by
      intro m k'
      simp only [copyOf_ren]
      constructor
      · rintro ⟨v, k, hc, rfl⟩
        obtain ⟨n, h1, h2⟩ := (h.numbered.range m k).mp ⟨v, hc⟩
        exact ⟨n, h1, (newId_renumbers h.numbered h1).lt k h2⟩
      · rintro ⟨n, h1, h2⟩
        have hp := idsOf_perm h.numbered h1
        have hl : k' < (idsOf m d.varLists.flatten).length := by rw [hp.length_eq, List.length_range]; exact h2
        have hmem : (idsOf m d.varLists.flatten)[k'] ∈ idsOf m d.varLists.flatten := List.getElem_mem hl
        obtain ⟨v, hv⟩ := mem_flatten_iff.mp (mem_idsOf.mp hmem)
        exact ⟨v, _, hv, ((idsOf_nodup (flatten_nodup h.numbered) m).idxOf_getElem k' hl).symm⟩
    unique := by
      intro m k' v v' h1 h2
      simp only [copyOf_ren] at h1 h2
      obtain ⟨k1, h1, rfl⟩ := h1
      obtain ⟨k2, h2, e⟩ := h2
      obtain ⟨n, a1, a2⟩ := (h.numbered.range m k1).mp ⟨v, h1⟩
      obtain ⟨n', b1, b2⟩ := (h.numbered.range m k2).mp ⟨v', h2⟩
      rw [a1] at b1
      injection b1 with b1
      subst b1
      have := (newId_renumbers h.numbered a1).inj k1 k2 a2 b2 e
      subst this
      exact h.numbered.unique m k1 v v' h1 h2
    once := by
      intro l' hl'
      obtain ⟨l, hl, rfl⟩ := List.mem_map.mp hl'
      refine List.Nodup.map_on ?_ (h.numbered.once l hl)
      intro s hs t ht e
      simp only [ren, SubVariable.mk.injEq] at e
      have hs' : s ∈ d.varLists.flatten := List.mem_flatten.mpr ⟨l, hl, hs⟩
      obtain ⟨e1, e2⟩ := e
      rw [← e1] at e2
      have : s.id = t.id := (List.idxOf_inj (mem_idsOf.mpr hs')).mp e2
      cases s; cases t
      simp_all }
  copies := by
    intro f l' s' h1 h2
    simp only [List.getElem?_map, Option.map_eq_some_iff] at h1
    obtain ⟨l, h1, rfl⟩ := h1
    obtain ⟨s, hs, rfl⟩ := List.mem_map.mp h2
    obtain ⟨a1, vars, a2, a3⟩ := h.copies f l s h1 hs
    exact ⟨a1, vars, a2, copiesOf_ren a3⟩
  emptyCopies := by
    intro key l' s' h1 h2
    obtain ⟨p, hp, e⟩ := List.mem_map.mp h1
    simp only [Prod.mk.injEq] at e
    obtain ⟨e1, e2⟩ := e
    subst e1 e2
    obtain ⟨s, hs, rfl⟩ := List.mem_map.mp h2
    obtain ⟨a1, a2⟩ := h.emptyCopies p.1 p.2 s hp hs
    exact ⟨a1, copiesOf_ren a2⟩
  keys := by
    simp only [List.map_map]
    exact h.keys
  idLt := by
    intro s' hs'
    simp only [← List.map_flatten] at hs'
    obtain ⟨s, hs, rfl⟩ := List.mem_map.mp hs'
    exact h.idLt s hs
  idOnce := by
    simp only [← List.map_flatten, List.map_map]
    exact h.idOnce
  count := by
    intro m n hn
    have := h.count m n hn
    have e1 : (d.facLists.map (List.map d.renFactor)).flatten.countP (fun s => s.model = m) = d.facLists.flatten.countP (fun s => s.model = m) := by
      rw [← List.map_flatten, List.countP_map]
      rfl
    have e2 : ((d.empty.map (fun p => (p.1, p.2.map d.renFactor))).flatMap Prod.snd).countP (fun s => s.model = m) =
        (d.empty.flatMap Prod.snd).countP (fun s => s.model = m) := by
      rw [List.flatMap_map, ← List.map_flatMap, List.countP_map]
      rfl
    simp only
    rw [e1, e2]
    exact this

/-- Reading the lists in order, the copies in a submodel are numbered 0, 1, 2, ... -/
theorem reorder_consecutive {scopes : List (List Nat)} {d : Decomposition} (h : WF scopes d) {m n : Nat} (hn : d.numSubVars[m]? = some n) :
    idsOf m (d.varLists.map (List.map (ren d.varLists.flatten))).flatten = List.range n := by
  rw [← List.map_flatten, idsOf_map_ren, map_idxOf_self (idsOf_nodup (flatten_nodup h.numbered) m), (idsOf_perm h.numbered hn).length_eq, List.length_range]

/-- Copies of later variables have larger numbers. -/
theorem reorder_order {scopes : List (List Nat)} {d : Decomposition} (h : WF scopes d) {m k k' v v' : Nat}
    (h1 : CopyOf (d.varLists.map (List.map (ren d.varLists.flatten))) m k v)
    (h2 : CopyOf (d.varLists.map (List.map (ren d.varLists.flatten))) m k' v') (hv : v < v') : k < k' := by
  rw [copyOf_ren] at h1 h2
  obtain ⟨j, ⟨l, h1, h1'⟩, rfl⟩ := h1
  obtain ⟨j', ⟨l', h2, h2'⟩, rfl⟩ := h2
  have hsplit : d.varLists.flatten = (d.varLists.take (v + 1)).flatten ++ (d.varLists.drop (v + 1)).flatten := by
    rw [← List.flatten_append, List.take_append_drop]
  have hj : j ∈ idsOf m (d.varLists.take (v + 1)).flatten := by
    rw [mem_idsOf, List.mem_flatten]
    exact ⟨l, List.mem_of_getElem? (i := v) (by rw [List.getElem?_take_of_lt (by omega)]; exact h1), h1'⟩
  have hj' : (⟨m, j'⟩ : SubVariable) ∈ (d.varLists.drop (v + 1)).flatten := by
    rw [List.mem_flatten]
    refine ⟨l', List.mem_of_getElem? (i := v' - (v + 1)) ?_, h2'⟩
    rw [List.getElem?_drop, show v + 1 + (v' - (v + 1)) = v' by omega]
    exact h2
  have hnot : j' ∉ idsOf m (d.varLists.take (v + 1)).flatten := by
    rw [mem_idsOf]
    intro hc
    have := flatten_nodup h.numbered
    rw [hsplit, List.nodup_append] at this
    exact this.2.2 _ hc _ hj' rfl
  unfold newId
  rw [hsplit, idsOf_append, List.idxOf_append_of_mem hj, List.idxOf_append_of_notMem hnot]
  have := List.idxOf_lt_length_of_mem hj
  omega

end Decomposition
end OpenGM
