import Verif.Model.LazyFlipper
import Verif.Lemmas.Movemaker
/-
Lemmas about the classes Tagging and Adjacency of the model of LazyFlipper.
-/
namespace OpenGM.LazyFlip
open Spec
variable {V : Type}

/-! ### tagging -/

/-- The list of indices holds the tagged indices, each once. -/
structure TagOk {α : Type} (d : α) (n : Nat) (t : Tagging α) : Prop where
  length : t.tags.length = n
  nodup : t.indices.Nodup
  mem : ∀ i, i ∈ t.indices ↔ i < n ∧ t.tags[i]? ≠ some d

theorem tagOk_make {α : Type} (d : α) (n : Nat) : TagOk d n (Tagging.make d n) := by
  refine ⟨by simp [Tagging.make], by simp [Tagging.make], ?_⟩
  intro i
  simp only [Tagging.make, List.not_mem_nil, false_iff, not_and, not_not]
  intro h
  simp [h]

theorem tagOk_append {α : Type} {d : α} {n : Nat} {t : Tagging α} (h : TagOk d n t) (k : Nat) : TagOk d (n + k) (t.append d k) := by
  refine ⟨by simp [Tagging.append, h.length], h.nodup, ?_⟩
  intro i
  simp only [Tagging.append]
  rw [h.mem]
  rcases Nat.lt_or_ge i n with hi | hi
  · rw [List.getElem?_append_left (by rw [h.length]; exact hi)]
    constructor
    · intro h'; exact ⟨by omega, h'.2⟩
    · intro h'; exact ⟨hi, h'.2⟩
  · rw [List.getElem?_append_right (by rw [h.length]; exact hi), h.length]
    constructor
    · intro h'; omega
    · rintro ⟨h1, h2⟩
      rw [List.getElem?_replicate, if_pos (by omega)] at h2
      exact absurd rfl h2

theorem tagOk_set {α : Type} [DecidableEq α] {d : α} {n : Nat} {t : Tagging α} (h : TagOk d n t) {i : Nat} {x : α} (hi : i < n) (hx : x ≠ d) :
    ∃ t', t.set d i x = some t' ∧ TagOk d n t' ∧ t'.tags = t.tags.set i x := by
  have hl : i < t.tags.length := by rw [h.length]; exact hi
  unfold Tagging.set
  rw [List.getElem?_eq_getElem hl]
  refine ⟨_, rfl, ⟨by simp [h.length], ?_, ?_⟩, rfl⟩
  · simp only
    split
    · next e =>
      rw [List.nodup_append]
      refine ⟨h.nodup, by simp, ?_⟩
      intro a ha b hb
      simp only [List.mem_singleton] at hb
      subst hb
      rintro rfl
      have := ((h.mem a).mp ha).2
      rw [List.getElem?_eq_getElem hl, e] at this
      exact this rfl
    · exact h.nodup
  · intro j
    simp only
    by_cases hj : j = i
    · subst hj
      rw [List.getElem?_set_self hl]
      constructor
      · intro _
        exact ⟨hi, by simpa using hx⟩
      · intro _
        split
        · simp
        · next e => exact (h.mem j).mpr ⟨hi, by rw [List.getElem?_eq_getElem hl]; simpa using e⟩
    · rw [List.getElem?_set_ne (fun e => hj e.symm), ← h.mem]
      split
      · simp [hj]
      · exact Iff.rfl

theorem untagLoop_spec {α : Type} (d : α) : ∀ (is : List Nat) (tags : List α), (∀ i ∈ is, i < tags.length) →
    ∃ tags', Tagging.untagLoop d is tags = some tags' ∧ tags'.length = tags.length ∧ ∀ i, i < tags.length → tags'[i]? = if i ∈ is then some d else tags[i]?
  | [], tags, _ => ⟨tags, rfl, rfl, by simp⟩
  | j :: is, tags, h => by
    obtain ⟨t', h1, h2, h3⟩ := untagLoop_spec d is (tags.set j d) (fun i hi => by simpa using h i (by simp [hi]))
    refine ⟨t', ?_, by simpa using h2, ?_⟩
    · unfold Tagging.untagLoop
      rw [setAt_of_lt _ (h j (by simp))]
      exact h1
    · intro i hi
      rw [h3 i (by simpa using hi)]
      by_cases e : i = j
      · subst e
        simp [List.getElem?_set_self hi]
      · rw [List.getElem?_set_ne (fun e' => e e'.symm)]
        simp [e]

theorem tagOk_untag {α : Type} {d : α} {n : Nat} {t : Tagging α} (h : TagOk d n t) : t.untag d = some (Tagging.make d n) := by
  obtain ⟨tags', h1, h2, h3⟩ := untagLoop_spec d t.indices t.tags (fun i hi => by rw [h.length]; exact ((h.mem i).mp hi).1)
  unfold Tagging.untag
  rw [h1]
  simp only [Tagging.make, Option.some.injEq, Tagging.mk.injEq, and_true]
  apply List.ext_getElem?
  intro i
  rcases Nat.lt_or_ge i n with hi | hi
  · rw [h3 i (by rw [h.length]; exact hi), List.getElem?_replicate, if_pos hi]
    split
    · rfl
    · next e =>
      rw [h.mem] at e
      by_contra hc
      exact e ⟨hi, hc⟩
  · rw [List.getElem?_eq_none (by rw [h2, h.length]; exact hi), List.getElem?_eq_none (by simpa using hi)]

/-- The variable is active. -/
def On (t : Tagging Bool) (v : Nat) : Prop := t.tags[v]? = some true

theorem get_spec {n : Nat} {t : Tagging Bool} (h : TagOk false n t) {v : Nat} (hv : v < n) : ∃ b, t.get v = some b ∧ (b = true ↔ On t v) := by
  have hl : v < t.tags.length := by rw [h.length]; exact hv
  refine ⟨t.tags[v], List.getElem?_eq_getElem hl, ?_⟩
  unfold On
  rw [List.getElem?_eq_getElem hl, Option.some.injEq]

theorem set_true_spec {n : Nat} {t : Tagging Bool} (h : TagOk false n t) {v : Nat} (hv : v < n) :
    ∃ t', t.set false v true = some t' ∧ TagOk false n t' ∧ ∀ w, On t' w ↔ w = v ∨ On t w := by
  obtain ⟨t', h1, h2, h3⟩ := tagOk_set h hv (x := true) (by simp)
  refine ⟨t', h1, h2, ?_⟩
  intro w
  unfold On
  rw [h3]
  by_cases e : w = v
  · subst e
    rw [List.getElem?_set_self (by rw [h.length]; exact hv)]
    simp
  · rw [List.getElem?_set_ne (fun e' => e e'.symm)]
    simp [e]

theorem tagAll_spec {n : Nat} : ∀ (vs : List Nat) (t : Tagging Bool), TagOk false n t → (∀ v ∈ vs, v < n) →
    ∃ t', tagAll vs t = some t' ∧ TagOk false n t' ∧ ∀ w, On t' w ↔ w ∈ vs ∨ On t w
  | [], t, h, _ => ⟨t, rfl, h, by simp⟩
  | v :: vs, t, h, hv => by
    obtain ⟨t1, h1, h2, h3⟩ := set_true_spec h (hv v (by simp))
    obtain ⟨t2, h4, h5, h6⟩ := tagAll_spec vs t1 h2 (fun w hw => hv w (by simp [hw]))
    refine ⟨t2, ?_, h5, ?_⟩
    · unfold tagAll
      rw [h1]
      exact h4
    · intro w
      rw [h6, h3, List.mem_cons]
      tauto

theorem on_make {n v : Nat} : ¬ On (Tagging.make false n) v := by
  unfold On Tagging.make
  simp only
  rw [List.getElem?_replicate]
  split <;> simp

/-! ### adjacency -/

/-- Neighbours in the adjacency lists. -/
def Nb (adj : List (List Nat)) (u v : Nat) : Prop := ∃ l, adj[u]? = some l ∧ v ∈ l

/-- The adjacency lists are sorted, symmetric and in range. -/
structure AdjOk (n : Nat) (adj : List (List Nat)) : Prop where
  length : adj.length = n
  sorted : ∀ l ∈ adj, l.Pairwise (· < ·)
  range : ∀ u v, Nb adj u v → v < n
  symm : ∀ u v, Nb adj u v → Nb adj v u

theorem insert_spec (s : List Nat) (k : Nat) (h : s.Pairwise (· < ·)) :
    (RandomAccessSet.insert natLess s k).1.Pairwise (· < ·) ∧ ∀ j, j ∈ (RandomAccessSet.insert natLess s k).1 ↔ j = k ∨ j ∈ s := by
  have := Movemaker.setUnion_spec s [k] h
  simpa [Movemaker.setUnion] using this

theorem nb_set {adj : List (List Nat)} {j : Nat} {s : List Nat} (hj : j < adj.length) {u v : Nat} :
    Nb (adj.set j s) u v ↔ if u = j then v ∈ s else Nb adj u v := by
  unfold Nb
  by_cases e : u = j
  · subst e
    rw [List.getElem?_set_self hj, if_pos rfl]
    simp
  · rw [List.getElem?_set_ne (fun e' => e e'.symm), if_neg e]

theorem connect_spec {n : Nat} {adj : List (List Nat)} (h : AdjOk n adj) {j k : Nat} (hj : j < n) (hk : k < n) :
    ∃ adj', connect adj j k = some adj' ∧ AdjOk n adj' ∧ ∀ u v, Nb adj' u v ↔ Nb adj u v ∨ (u = j ∧ v = k) ∨ (u = k ∧ v = j) := by
  have hjl : j < adj.length := by rw [h.length]; exact hj
  have h1 := insert_spec adj[j] k (h.sorted _ (List.getElem_mem hjl))
  have hsort1 : ∀ l ∈ adj.set j (RandomAccessSet.insert natLess adj[j] k).1, l.Pairwise (· < ·) := by
    intro l hl
    rcases List.mem_or_eq_of_mem_set hl with hl | rfl
    · exact h.sorted l hl
    · exact h1.1
  have hkl : k < (adj.set j (RandomAccessSet.insert natLess adj[j] k).1).length := by simp [h.length, hk]
  have h2 := insert_spec (adj.set j (RandomAccessSet.insert natLess adj[j] k).1)[k] j (hsort1 _ (List.getElem_mem hkl))
  have hn1 : ∀ u v, Nb (adj.set j (RandomAccessSet.insert natLess adj[j] k).1) u v ↔ Nb adj u v ∨ (u = j ∧ v = k) := by
    intro u v
    rw [nb_set hjl]
    split
    · next e =>
      subst e
      rw [h1.2]
      have : Nb adj u v ↔ v ∈ adj[u] := by
        unfold Nb
        rw [List.getElem?_eq_getElem hjl]
        simp
      rw [this]
      simp [or_comm]
    · next e => simp [e]
  have hn2 : ∀ u v, Nb ((adj.set j (RandomAccessSet.insert natLess adj[j] k).1).set k
      (RandomAccessSet.insert natLess (adj.set j (RandomAccessSet.insert natLess adj[j] k).1)[k] j).1) u v ↔
      Nb adj u v ∨ (u = j ∧ v = k) ∨ (u = k ∧ v = j) := by
    intro u v
    rw [nb_set hkl]
    split
    · next e =>
      subst e
      rw [h2.2]
      have : Nb (adj.set j (RandomAccessSet.insert natLess adj[j] u).1) u v ↔ v ∈ (adj.set j (RandomAccessSet.insert natLess adj[j] u).1)[u] := by
        unfold Nb
        rw [List.getElem?_eq_getElem hkl]
        simp
      rw [← this, hn1]
      tauto
    · next e =>
      rw [hn1]
      simp [e]
  refine ⟨_, ?_, ⟨by simp [h.length], ?_, ?_, ?_⟩, hn2⟩
  · unfold connect
    rw [List.getElem?_eq_getElem hjl]
    simp only
    rw [List.getElem?_eq_getElem hkl]
  · intro l hl
    rcases List.mem_or_eq_of_mem_set hl with hl | rfl
    · exact hsort1 l hl
    · exact h2.1
  · intro u v huv
    rw [hn2] at huv
    rcases huv with huv | ⟨_, rfl⟩ | ⟨_, rfl⟩
    · exact h.range u v huv
    · exact hk
    · exact hj
  · intro u v huv
    rw [hn2] at huv ⊢
    rcases huv with huv | huv | huv
    · exact .inl (h.symm u v huv)
    · exact .inr (.inr ⟨huv.2, huv.1⟩)
    · exact .inr (.inl ⟨huv.2, huv.1⟩)

theorem connected_spec {n : Nat} {adj : List (List Nat)} (h : AdjOk n adj) {j k : Nat} (hj : j < n) (hk : k < n) :
    ∃ b, connected adj j k = some b ∧ (b = true ↔ Nb adj j k) := by
  have hjl : j < adj.length := by rw [h.length]; exact hj
  have hkl : k < adj.length := by rw [h.length]; exact hk
  have e1 : ∀ a b (ha : a < adj.length), Nb adj a b ↔ b ∈ adj[a] := by
    intro a b ha
    unfold Nb
    rw [List.getElem?_eq_getElem ha]
    simp
  unfold connected
  rw [List.getElem?_eq_getElem hjl, List.getElem?_eq_getElem hkl]
  simp only
  split
  · exact ⟨_, rfl, by rw [e1 j k hjl]; simp⟩
  · refine ⟨_, rfl, ?_⟩
    rw [decide_eq_true_iff, ← e1 k j hkl]
    exact ⟨h.symm k j, h.symm j k⟩

theorem connectAll_spec {n : Nat} {v : Nat} (hv : v < n) : ∀ (ws : List Nat) (adj : List (List Nat)), AdjOk n adj → (∀ w ∈ ws, w < n) →
    ∃ adj', connectAll v ws adj = some adj' ∧ AdjOk n adj' ∧ ∀ a b, Nb adj' a b ↔ Nb adj a b ∨ (a = v ∧ b ∈ ws) ∨ (a ∈ ws ∧ b = v)
  | [], adj, h, _ => ⟨adj, rfl, h, by simp⟩
  | w :: ws, adj, h, hw => by
    obtain ⟨a1, h1, h2, h3⟩ := connect_spec h hv (hw w (by simp))
    obtain ⟨a2, h4, h5, h6⟩ := connectAll_spec hv ws a1 h2 (fun x hx => hw x (by simp [hx]))
    refine ⟨a2, ?_, h5, ?_⟩
    · unfold connectAll
      rw [h1]
      exact h4
    · intro a b
      rw [h6, h3, List.mem_cons, List.mem_cons]
      tauto

theorem connectPairs_spec {n : Nat} : ∀ (vs : List Nat) (adj : List (List Nat)), vs.Nodup → AdjOk n adj → (∀ w ∈ vs, w < n) →
    ∃ adj', connectPairs vs adj = some adj' ∧ AdjOk n adj' ∧ ∀ a b, Nb adj' a b ↔ Nb adj a b ∨ (a ∈ vs ∧ b ∈ vs ∧ a ≠ b)
  | [], adj, _, h, _ => ⟨adj, rfl, h, by simp⟩
  | v :: vs, adj, hn, h, hw => by
    rw [List.nodup_cons] at hn
    obtain ⟨a1, h1, h2, h3⟩ := connectAll_spec (hw v (by simp)) vs adj h (fun x hx => hw x (by simp [hx]))
    obtain ⟨a2, h4, h5, h6⟩ := connectPairs_spec vs a1 hn.2 h2 (fun x hx => hw x (by simp [hx]))
    refine ⟨a2, ?_, h5, ?_⟩
    · unfold connectPairs
      rw [h1]
      exact h4
    · intro a b
      rw [h6, h3, List.mem_cons, List.mem_cons]
      constructor
      · rintro ((h | ⟨rfl, h⟩ | ⟨h, rfl⟩) | ⟨h, h', h''⟩)
        · exact .inl h
        · exact .inr ⟨.inl rfl, .inr h, fun e => hn.1 (e ▸ h)⟩
        · exact .inr ⟨.inr h, .inl rfl, fun e => hn.1 (e ▸ h)⟩
        · exact .inr ⟨.inr h, .inr h', h''⟩
      · rintro (h | ⟨rfl | h, rfl | h', h''⟩)
        · exact .inl (.inl h)
        · exact absurd rfl h''
        · exact .inl (.inr (.inl ⟨rfl, h'⟩))
        · exact .inl (.inr (.inr ⟨h, rfl⟩))
        · exact .inr ⟨h, h', h''⟩

/-- Two variables of a term. -/
def Share (p : Problem V) (u v : Nat) : Prop := u ≠ v ∧ ∃ f, mentions p.terms u f = true ∧ mentions p.terms v f = true

theorem buildAdjacency_loop {gm : GM V} {n : Nat} (hn : gm.numLabels.length = n) : ∀ (fs : List FactorRec) (ts : List (Term V)) (adj : List (List Nat)),
    List.Forall₂ (FactorMatches gm) fs ts → AdjOk n adj →
    ∃ adj', buildAdjacency gm fs adj = some adj' ∧ AdjOk n adj' ∧ ∀ a b, Nb adj' a b ↔ Nb adj a b ∨ (a ≠ b ∧ ∃ t ∈ ts, a ∈ t.vars ∧ b ∈ t.vars)
  | _, _, adj, .nil, h => ⟨adj, rfl, h, by simp⟩
  | f :: fs, t :: ts, adj, .cons hm hr, h => by
    obtain ⟨a1, h1, h2, h3⟩ := connectPairs_spec t.vars adj (hm.sorted.imp (fun h => Nat.ne_of_lt h)) h (fun w hw => by rw [← hn]; exact hm.range w hw)
    obtain ⟨a2, h4, h5, h6⟩ := buildAdjacency_loop hn fs ts a1 hr h2
    refine ⟨a2, ?_, h5, ?_⟩
    · unfold buildAdjacency
      rw [hm.scope, h1]
      exact h4
    · intro a b
      rw [h6, h3]
      simp only [List.mem_cons, exists_eq_or_imp]
      tauto

theorem mentions_iff {terms : List (Term V)} {v f : Nat} : mentions terms v f = true ↔ ∃ t, terms[f]? = some t ∧ v ∈ t.vars := by
  unfold mentions
  cases terms[f]? <;> simp

theorem buildAdjacency_spec {gm : GM V} {p : Problem V} (h : Stores gm p) :
    ∃ adj, buildAdjacency gm gm.factors (List.replicate gm.numberOfVariables []) = some adj ∧ AdjOk p.numLabels.length adj ∧
      ∀ a b, Nb adj a b ↔ Share p a b := by
  have h0 : ∀ a b, ¬ Nb (List.replicate gm.numberOfVariables ([] : List Nat)) a b := by
    rintro a b ⟨l, h1, h2⟩
    rw [List.getElem?_replicate] at h1
    split at h1
    · rw [Option.some.injEq] at h1
      subst h1
      simp at h2
    · simp at h1
  obtain ⟨adj, h1, h2, h3⟩ := buildAdjacency_loop (n := p.numLabels.length) (by rw [h.labels]) gm.factors p.terms
    (List.replicate gm.numberOfVariables []) h.factors
    ⟨by simp [GM.numberOfVariables, h.labels], by intro l hl; rw [List.mem_replicate] at hl; simp [hl.2], fun a b hab => absurd hab (h0 a b),
      fun a b hab => absurd hab (h0 a b)⟩
  refine ⟨adj, h1, h2, ?_⟩
  intro a b
  rw [h3]
  unfold Share
  simp only [h0, false_or, mentions_iff]
  constructor
  · rintro ⟨e, t, ht, ha, hb⟩
    obtain ⟨i, hi⟩ := List.getElem?_of_mem ht
    exact ⟨e, i, ⟨t, hi, ha⟩, ⟨t, hi, hb⟩⟩
  · rintro ⟨e, i, ⟨t, hi, ha⟩, ⟨t', hi', hb⟩⟩
    rw [hi] at hi'
    obtain rfl := Option.some.inj hi'
    exact ⟨e, t, List.mem_of_getElem? hi, ha, hb⟩

theorem activateLoop_spec {n : Nat} {adj : List (List Nat)} (ha : AdjOk n adj) : ∀ (vs : List Nat) (t : Tagging Bool), TagOk false n t → (∀ v ∈ vs, v < n) →
    ∃ t', activateLoop adj vs t = some t' ∧ TagOk false n t' ∧ ∀ w, On t' w ↔ (∃ v ∈ vs, w = v ∨ Nb adj v w) ∨ On t w
  | [], t, h, _ => ⟨t, rfl, h, by simp⟩
  | v :: vs, t, h, hv => by
    have hvn := hv v (by simp)
    have hl : v < adj.length := by rw [ha.length]; exact hvn
    have hnb : ∀ w, Nb adj v w ↔ w ∈ adj[v] := by
      intro w
      unfold Nb
      rw [List.getElem?_eq_getElem hl]
      simp
    obtain ⟨t1, h1, h2, h3⟩ := set_true_spec h hvn
    obtain ⟨t2, h4, h5, h6⟩ := tagAll_spec adj[v] t1 h2 (fun w hw => ha.range v w ((hnb w).mpr hw))
    obtain ⟨t3, h7, h8, h9⟩ := activateLoop_spec ha vs t2 h5 (fun w hw => hv w (by simp [hw]))
    refine ⟨t3, ?_, h8, ?_⟩
    · unfold activateLoop
      rw [h1, List.getElem?_eq_getElem hl]
      simp only
      rw [h4]
      exact h7
    · intro w
      rw [h9, h6, h3, ← hnb]
      simp only [List.mem_cons, exists_eq_or_imp]
      generalize (∃ v ∈ vs, w = v ∨ Nb adj v w) = A
      tauto

theorem anyActive_spec {n : Nat} {t : Tagging Bool} (h : TagOk false n t) : ∀ (vs : List Nat), (∀ v ∈ vs, v < n) →
    ∃ b, anyActive t vs = some b ∧ (b = true ↔ ∃ v ∈ vs, On t v)
  | [], _ => ⟨false, rfl, by simp⟩
  | v :: vs, hv => by
    obtain ⟨b, h1, h2⟩ := get_spec h (hv v (by simp))
    obtain ⟨b', h3, h4⟩ := anyActive_spec h vs (fun w hw => hv w (by simp [hw]))
    unfold anyActive
    rw [h1]
    cases b with
    | true => exact ⟨true, rfl, by simp only [true_iff]; exact ⟨v, by simp, h2.mp rfl⟩⟩
    | false =>
      refine ⟨b', h3, ?_⟩
      rw [h4]
      have : ¬ On t v := fun h => by simpa using h2.mpr h
      simp [this]

end OpenGM.LazyFlip
