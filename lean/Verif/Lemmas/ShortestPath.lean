import Verif.Model.FactorGraphPaths
import Verif.Spec.Paths
import Verif.Lemmas.FactorGraph
import Mathlib.Data.List.Nodup
import Mathlib.Data.List.Chain
import Mathlib.Data.List.Induction
/-! Lemmas for C77: the loop of shortestPath. -/
namespace OpenGM
namespace FG

theorem setAt_some {α : Type} (l : List α) (i : Nat) (x : α) (h : i < l.length) : setAt l i x = some (l.set i x) := by
  simp [setAt, h]

/-- `distLess` against finite values. -/
theorem distLess_some (a : Nat) (b : Option Nat) :
    distLess (some a) b = true ↔ b = none ∨ ∃ e, b = some e ∧ a < e := by
  cases b <;> simp [distLess]

/-- `a ≤ b` where `none` is infinity. -/
def DLe (a b : Option Nat) : Prop := distLess b a = false

theorem DLe.refl (a : Option Nat) : DLe a a := by cases a <;> simp [DLe, distLess]

theorem DLe.trans {a b c : Option Nat} (h1 : DLe a b) (h2 : DLe b c) : DLe a c := by
  cases a <;> cases b <;> cases c <;> simp_all [DLe, distLess] <;> omega

theorem DLe.of_less {a b : Option Nat} (h : distLess a b = true) : DLe a b := by
  cases a <;> cases b <;> simp_all [DLe, distLess] <;> omega

theorem minQ_spec (dist : List (Option Nat)) (xs : List Nat) :
    ∀ (cur : Nat), cur < dist.length → (∀ x ∈ xs, x < dist.length) →
      ∃ r dr, minQ dist cur xs = some r ∧ (r = cur ∨ r ∈ xs) ∧ dist[r]? = some dr ∧
        ∀ x, (x = cur ∨ x ∈ xs) → ∃ dx, dist[x]? = some dx ∧ DLe dr dx := by
  induction xs with
  | nil =>
    intro cur hc _
    refine ⟨cur, dist[cur], rfl, Or.inl rfl, List.getElem?_eq_getElem hc, ?_⟩
    rintro x (rfl | hx)
    · exact ⟨_, List.getElem?_eq_getElem hc, DLe.refl _⟩
    · cases hx
  | cons y ys ih =>
    intro cur hc hx
    have hy := hx y (by simp)
    have hys : ∀ x ∈ ys, x < dist.length := fun x h => hx x (by simp [h])
    unfold minQ
    rw [List.getElem?_eq_getElem hy, List.getElem?_eq_getElem hc]
    simp only
    by_cases hl : distLess dist[y] dist[cur] = true
    · rw [if_pos hl]
      obtain ⟨r, dr, a1, a2, a3, a4⟩ := ih y hy hys
      refine ⟨r, dr, a1, ?_, a3, ?_⟩
      · rcases a2 with rfl | h
        · exact Or.inr (by simp)
        · exact Or.inr (by simp [h])
      · rintro x (rfl | hx)
        · obtain ⟨dy, b1, b2⟩ := a4 y (Or.inl rfl)
          rw [List.getElem?_eq_getElem hy] at b1
          cases b1
          exact ⟨_, List.getElem?_eq_getElem hc, b2.trans (DLe.of_less hl)⟩
        · rw [List.mem_cons] at hx
          exact a4 x hx
    · rw [if_neg hl]
      obtain ⟨r, dr, a1, a2, a3, a4⟩ := ih cur hc hys
      refine ⟨r, dr, a1, ?_, a3, ?_⟩
      · rcases a2 with rfl | h
        · exact Or.inl rfl
        · exact Or.inr (by simp [h])
      · rintro x (rfl | hx)
        · exact a4 x (Or.inl rfl)
        · rw [List.mem_cons] at hx
          rcases hx with rfl | hx
          · obtain ⟨dc, b1, b2⟩ := a4 cur (Or.inl rfl)
            rw [List.getElem?_eq_getElem hc] at b1
            cases b1
            refine ⟨_, List.getElem?_eq_getElem hy, b2.trans ?_⟩
            simpa [DLe] using hl
          · exact a4 x (Or.inr hx)

/-- What one relaxation round does. -/
theorem relax_spec (Q : List Nat) (cur d m : Nat) (hQ : ∀ x ∈ Q, x < m) (hcur : cur ∉ Q) (xs : List Nat) :
    ∀ (dist prev : List (Option Nat)), dist.length = m → prev.length = m → dist[cur]? = some (some d) →
      ∃ dist' prev', relax Q cur xs dist prev = some (dist', prev') ∧ dist'.length = m ∧ prev'.length = m ∧
        ∀ x : Nat,
          (dist'[x]? = dist[x]? ∧ prev'[x]? = prev[x]? ∧
            (x ∈ Q → x ∈ xs → ∃ e, dist[x]? = some (some e) ∧ e ≤ d + 1)) ∨
          (x ∈ Q ∧ x ∈ xs ∧ dist'[x]? = some (some (d + 1)) ∧ prev'[x]? = some (some cur) ∧
            (dist[x]? = some none ∨ ∃ e, dist[x]? = some (some e) ∧ d + 1 < e)) := by
  induction xs with
  | nil =>
    intro dist prev hd hp _
    exact ⟨dist, prev, rfl, hd, hp, fun x => Or.inl ⟨rfl, rfl, by simp⟩⟩
  | cons y ys ih =>
    intro dist prev hd hp hc
    unfold relax
    by_cases hy : Q.contains y = true
    · rw [if_pos hy]
      have hyQ : y ∈ Q := by simpa using hy
      have hym := hQ y hyQ
      have hyc : y ≠ cur := fun e => hcur (e ▸ hyQ)
      have hyd : y < dist.length := by omega
      rw [hc, List.getElem?_eq_getElem hyd]
      simp only [Option.map_some]
      by_cases hl : distLess (some (d + 1)) dist[y] = true
      · rw [if_pos hl, setAt_some _ _ _ hyd, setAt_some _ _ _ (by omega)]
        simp only
        obtain ⟨dist', prev', a1, a2, a3, a4⟩ := ih (dist.set y (some (d + 1))) (prev.set y (some cur))
          (by simpa using hd) (by simpa using hp) (by rw [List.getElem?_set_ne hyc]; exact hc)
        refine ⟨dist', prev', a1, a2, a3, ?_⟩
        intro x
        by_cases hxy : x = y
        · subst hxy
          right
          have e1 : (dist.set x (some (d + 1)))[x]? = some (some (d + 1)) := by
            rw [List.getElem?_set_self hyd]
          have e2 : (prev.set x (some cur))[x]? = some (some cur) := by
            rw [List.getElem?_set_self (by omega)]
          refine ⟨hyQ, by simp, ?_, ?_, ?_⟩
          · rcases a4 x with ⟨b1, _, _⟩ | ⟨_, _, b3, _, _⟩
            · rw [b1, e1]
            · exact b3
          · rcases a4 x with ⟨_, b1, _⟩ | ⟨_, _, _, b3, _⟩
            · rw [b1, e2]
            · exact b3
          · rw [List.getElem?_eq_getElem hyd]
            rcases (distLess_some _ _).mp hl with h | ⟨e, h, h'⟩
            · exact Or.inl (by rw [h])
            · exact Or.inr ⟨e, by rw [h], h'⟩
        · have e1 : (dist.set y (some (d + 1)))[x]? = dist[x]? := List.getElem?_set_ne (fun h => hxy h.symm)
          have e2 : (prev.set y (some cur))[x]? = prev[x]? := List.getElem?_set_ne (fun h => hxy h.symm)
          rcases a4 x with ⟨b1, b2, b3⟩ | ⟨b1, b2, b3, b4, b5⟩
          · left
            refine ⟨by rw [b1, e1], by rw [b2, e2], ?_⟩
            intro h1 h2
            rw [List.mem_cons] at h2
            rw [e1] at b3
            exact b3 h1 (h2.resolve_left hxy)
          · right
            rw [e1] at b5
            exact ⟨b1, by simp [b2], b3, b4, b5⟩
      · rw [if_neg hl]
        obtain ⟨dist', prev', a1, a2, a3, a4⟩ := ih dist prev hd hp hc
        refine ⟨dist', prev', a1, a2, a3, ?_⟩
        intro x
        rcases a4 x with ⟨b1, b2, b3⟩ | ⟨b1, b2, b3, b4, b5⟩
        · left
          refine ⟨b1, b2, ?_⟩
          intro h1 h2
          rw [List.mem_cons] at h2
          rcases h2 with rfl | h2
          · rw [List.getElem?_eq_getElem hyd]
            rw [distLess_some] at hl
            cases hdx : dist[x] with
            | none => exact absurd (Or.inl hdx) hl
            | some e =>
              refine ⟨e, rfl, ?_⟩
              by_contra hh
              exact hl (Or.inr ⟨e, hdx, by omega⟩)
          · exact b3 h1 h2
        · exact Or.inr ⟨b1, by simp [b2], b3, b4, b5⟩
    · rw [if_neg hy]
      obtain ⟨dist', prev', a1, a2, a3, a4⟩ := ih dist prev hd hp hc
      refine ⟨dist', prev', a1, a2, a3, ?_⟩
      intro x
      rcases a4 x with ⟨b1, b2, b3⟩ | ⟨b1, b2, b3, b4, b5⟩
      · left
        refine ⟨b1, b2, ?_⟩
        intro h1 h2
        rw [List.mem_cons] at h2
        rcases h2 with rfl | h2
        · exact absurd (by simpa using h1) hy
        · exact b3 h1 h2
      · exact Or.inr ⟨b1, by simp [b2], b3, b4, b5⟩

/-- The invariant of the main loop, for a relation `R` ("visited from") on identifiers below `m`. -/
structure DInv (R : Nat → Nat → Prop) (m s : Nat) (Q : List Nat) (dist prev : List (Option Nat)) : Prop where
  lenD : dist.length = m
  lenP : prev.length = m
  nodup : Q.Nodup
  qlt : ∀ x ∈ Q, x < m
  s0 : dist[s]? = some (some 0)
  sp : prev[s]? = some none
  link : ∀ (v d : Nat), dist[v]? = some (some d) → v ≠ s →
    ∃ u e, prev[v]? = some (some u) ∧ dist[u]? = some (some e) ∧ d = e + 1 ∧ R u v ∧ u ∉ Q ∧ u < m
  done : ∀ (u : Nat), u < m → u ∉ Q → ∃ d, dist[u]? = some (some d) ∧
    ∀ w, R u w → ∃ e, dist[w]? = some (some e) ∧ e ≤ d + 1
  mono : ∀ (u v e : Nat), u < m → u ∉ Q → v ∈ Q → dist[v]? = some (some e) →
    ∃ d, dist[u]? = some (some d) ∧ d ≤ e

theorem DInv.init (R : Nat → Nat → Prop) (m s : Nat) (hs : s < m) :
    DInv R m s (List.range m) ((List.replicate m none).set s (some 0)) (List.replicate m none) := by
  refine ⟨by simp, by simp, List.nodup_range, by simp, ?_, ?_, ?_, ?_, ?_⟩
  · rw [List.getElem?_set_self (by simpa using hs)]
  · simp [hs]
  · intro v d h hv
    rw [List.getElem?_set_ne (fun h => hv h.symm)] at h
    rw [List.getElem?_replicate] at h
    split at h <;> simp at h
  · intro u hu h; simp at h; omega
  · intro u v e hu h; simp at h; omega

theorem DInv.step {R : Nat → Nat → Prop} {m s : Nat} {Q : List Nat} {dist prev : List (Option Nat)}
    (h : DInv R m s Q dist prev) (cur d : Nat) (hc : cur ∈ Q) (hd : dist[cur]? = some (some d))
    (hmin : ∀ x ∈ Q, ∃ dx, dist[x]? = some dx ∧ DLe (some d) dx) (l : List Nat) (hl : ∀ x, x ∈ l ↔ R cur x)
    (hlt : ∀ x ∈ l, x < m) :
    ∃ dist' prev', relax (Q.erase cur) cur l dist prev = some (dist', prev') ∧
      DInv R m s (Q.erase cur) dist' prev' := by
  have hcm := h.qlt cur hc
  have memE : ∀ x, x ∈ Q.erase cur ↔ x ≠ cur ∧ x ∈ Q := fun x => h.nodup.mem_erase_iff
  have hnc : cur ∉ Q.erase cur := by rw [memE]; simp
  obtain ⟨dist', prev', a1, a2, a3, a4⟩ := relax_spec (Q.erase cur) cur d m
    (fun x hx => h.qlt x ((memE x).mp hx).2) hnc l dist prev h.lenD h.lenP hd
  have keep : ∀ x, x ∉ Q.erase cur → dist'[x]? = dist[x]? ∧ prev'[x]? = prev[x]? := by
    intro x hx
    rcases a4 x with ⟨b1, b2, _⟩ | ⟨b1, _⟩
    · exact ⟨b1, b2⟩
    · exact absurd b1 hx
  have low : ∀ u, u < m → u ∉ Q.erase cur → ∃ du, dist[u]? = some (some du) ∧ du ≤ d := by
    intro u hu hq
    by_cases e : u = cur
    · exact ⟨d, e ▸ hd, le_refl _⟩
    · exact h.mono u cur d hu (fun hh => hq ((memE u).mpr ⟨e, hh⟩)) hc hd
  refine ⟨dist', prev', a1, a2, a3, h.nodup.erase _, fun x hx => h.qlt x ((memE x).mp hx).2, ?_, ?_, ?_, ?_, ?_⟩
  · rcases a4 s with ⟨b1, _, _⟩ | ⟨_, _, _, _, b5⟩
    · rw [b1]; exact h.s0
    · rw [h.s0] at b5; simp at b5
  · rcases a4 s with ⟨_, b1, _⟩ | ⟨_, _, _, _, b5⟩
    · rw [b1]; exact h.sp
    · rw [h.s0] at b5; simp at b5
  · intro v dv hv hvs
    rcases a4 v with ⟨b1, b2, _⟩ | ⟨b1, b2, b3, b4, _⟩
    · rw [b1] at hv
      obtain ⟨u, e, c1, c2, c3, c4, c5, c6⟩ := h.link v dv hv hvs
      have hu : u ∉ Q.erase cur := fun hh => c5 ((memE u).mp hh).2
      exact ⟨u, e, by rw [b2, c1], by rw [(keep u hu).1, c2], c3, c4, hu, c6⟩
    · rw [b3] at hv
      cases hv
      exact ⟨cur, d, b4, by rw [(keep cur hnc).1, hd], rfl, (hl v).mp b2, hnc, hcm⟩
  · intro u hu hq
    by_cases e : u = cur
    · subst e
      refine ⟨d, by rw [(keep u hnc).1, hd], ?_⟩
      intro w hw
      have hwl := (hl w).mpr hw
      by_cases hwq : w ∈ Q.erase u
      · rcases a4 w with ⟨b1, _, b3⟩ | ⟨_, _, b3, _, _⟩
        · obtain ⟨e, c1, c2⟩ := b3 hwq hwl
          exact ⟨e, by rw [b1, c1], c2⟩
        · exact ⟨d + 1, b3, le_refl _⟩
      · obtain ⟨dw, c1, c2⟩ := low w (hlt w hwl) hwq
        exact ⟨dw, by rw [(keep w hwq).1, c1], by omega⟩
    · have huQ : u ∉ Q := fun hh => hq ((memE u).mpr ⟨e, hh⟩)
      obtain ⟨du, c1, c2⟩ := h.done u hu huQ
      refine ⟨du, by rw [(keep u hq).1, c1], ?_⟩
      intro w hw
      obtain ⟨ew, c3, c4⟩ := c2 w hw
      rcases a4 w with ⟨b1, _, _⟩ | ⟨_, _, b3, _, b5⟩
      · exact ⟨ew, by rw [b1, c3], c4⟩
      · rw [c3] at b5
        rcases b5 with b5 | ⟨e', b5, b6⟩
        · cases b5
        · cases b5
          exact ⟨d + 1, b3, by omega⟩
  · intro u v e hu hq hv he
    obtain ⟨du, c1, c2⟩ := low u hu hq
    refine ⟨du, by rw [(keep u hq).1, c1], ?_⟩
    rcases a4 v with ⟨b1, _, _⟩ | ⟨_, _, b3, _, _⟩
    · rw [b1] at he
      obtain ⟨dx, c3, c4⟩ := hmin v ((memE v).mp hv).2
      rw [he] at c3
      cases c3
      simp [DLe, distLess] at c4
      omega
    · rw [b3] at he
      cases he
      omega

/-- Walks with `k` steps along a relation. -/
inductive WalkR (R : Nat → Nat → Prop) (s : Nat) : Nat → Nat → Prop
  | nil : WalkR R s s 0
  | snoc {x w k} : WalkR R s x k → R x w → WalkR R s w (k + 1)

theorem DInv.bound {R : Nat → Nat → Prop} {m s : Nat} {Q : List Nat} {dist prev : List (Option Nat)}
    (h : DInv R m s Q dist prev) (hR : ∀ a b, R a b → a < m → b < m) (hs : s < m) {x k : Nat} (w : WalkR R s x k) :
    x < m ∧ ((∃ e, dist[x]? = some (some e) ∧ e ≤ k) ∨ ∃ y ∈ Q, ∃ e, dist[y]? = some (some e) ∧ e ≤ k) := by
  induction w with
  | nil => exact ⟨hs, Or.inl ⟨0, h.s0, le_refl _⟩⟩
  | @snoc x w k _ hr ih =>
    obtain ⟨hx, ih⟩ := ih
    refine ⟨hR _ _ hr hx, ?_⟩
    rcases ih with ⟨e, h1, h2⟩ | ⟨y, hy, e, h1, h2⟩
    · by_cases hq : x ∈ Q
      · exact Or.inr ⟨x, hq, e, h1, by omega⟩
      · obtain ⟨d, c1, c2⟩ := h.done x hx hq
        obtain ⟨e', c3, c4⟩ := c2 w hr
        rw [h1] at c1
        cases c1
        exact Or.inl ⟨e', c3, by omega⟩
    · exact Or.inr ⟨y, hy, e, h1, by omega⟩

/-- The main loop: either no walk leads to `t`, or `prev` comes with distances which satisfy the invariant and are least for
`t`. -/
theorem dijkstra_spec (R : Nat → Nat → Prop) (m s t : Nat) (hs : s < m) (nbrs : Nat → Option (List Nat))
    (hn : ∀ c, c < m → ∃ l, nbrs c = some l ∧ (∀ x, x ∈ l ↔ R c x) ∧ ∀ x ∈ l, x < m) (fuel : Nat) :
    ∀ (Q : List Nat) (dist prev : List (Option Nat)), DInv R m s Q dist prev → t ∈ Q → Q.length = fuel →
      (dijkstra nbrs t fuel Q dist prev = some none ∧ ∀ k, ¬ WalkR R s t k) ∨
      (∃ Q' dist' prev' d, dijkstra nbrs t fuel Q dist prev = some (some prev') ∧ DInv R m s Q' dist' prev' ∧
        dist'[t]? = some (some d) ∧ ∀ k, WalkR R s t k → d ≤ k) := by
  have hR : ∀ a b, R a b → a < m → b < m := by
    intro a b hab ha
    obtain ⟨l, _, h2, h3⟩ := hn a ha
    exact h3 b ((h2 b).mpr hab)
  induction fuel with
  | zero =>
    intro Q dist prev h ht hf
    rw [List.length_eq_zero_iff] at hf
    subst hf
    cases ht
  | succ fuel ih =>
    intro Q dist prev h ht hf
    cases Q with
    | nil => cases ht
    | cons q qs =>
      unfold dijkstra
      obtain ⟨cur, dc, a1, a2, a3, a4⟩ := minQ_spec dist (q :: qs) q (by rw [h.lenD]; exact h.qlt q (by simp))
        (fun x hx => by rw [h.lenD]; exact h.qlt x hx)
      have hcur : cur ∈ q :: qs := by
        rcases a2 with rfl | h'
        · simp
        · exact h'
      have hmin : ∀ x ∈ q :: qs, ∃ dx, dist[x]? = some dx ∧ DLe dc dx := fun x hx => a4 x (Or.inr hx)
      rw [a1]
      simp only
      rw [a3]
      cases dc with
      | none =>
        left
        refine ⟨rfl, ?_⟩
        intro k hw
        rcases (h.bound hR hs hw).2 with ⟨e, h1, _⟩ | ⟨y, hy, e, h1, _⟩
        · obtain ⟨dx, c1, c2⟩ := hmin t ht
          rw [h1] at c1
          cases c1
          simp [DLe, distLess] at c2
        · obtain ⟨dx, c1, c2⟩ := hmin y hy
          rw [h1] at c1
          cases c1
          simp [DLe, distLess] at c2
      | some d =>
        simp only
        by_cases hct : cur = t
        · rw [if_pos hct]
          subst hct
          right
          refine ⟨q :: qs, dist, prev, d, rfl, h, a3, ?_⟩
          intro k hw
          rcases (h.bound hR hs hw).2 with ⟨e, h1, h2⟩ | ⟨y, hy, e, h1, h2⟩
          · rw [a3] at h1
            cases h1
            exact h2
          · obtain ⟨dx, c1, c2⟩ := hmin y hy
            rw [h1] at c1
            cases c1
            simp [DLe, distLess] at c2
            omega
        · rw [if_neg hct]
          obtain ⟨l, l1, l2, l3⟩ := hn cur (h.qlt cur hcur)
          obtain ⟨dist', prev', b1, b2⟩ := h.step cur d hcur a3 hmin l l2 l3
          rw [l1]
          simp only
          rw [b1]
          simp only
          refine ih _ dist' prev' b2 ?_ ?_
          · rw [h.nodup.mem_erase_iff]
            exact ⟨fun e => hct e.symm, ht⟩
          · rw [List.length_erase_of_mem hcur]
            omega

/-- Following `prev`: the identifiers visited, from `s` to `v`. -/
theorem DInv.trace {R : Nat → Nat → Prop} {m s : Nat} {Q : List Nat} {dist prev : List (Option Nat)}
    (h : DInv R m s Q dist prev) (d : Nat) :
    ∀ (v : Nat), v < m → dist[v]? = some (some d) →
      ∃ p : List Nat, p.length = d ∧ (s :: p).IsChain R ∧ (s :: p).getLast? = some v ∧ (∀ x ∈ s :: p, x < m ∨ x = s) ∧
        (∀ x ∈ s :: p, ∃ e, dist[x]? = some (some e) ∧ e ≤ d) ∧ (s :: p).Nodup ∧
        ∀ (actual : Nat → Option Nat) (f : Nat → Nat), (∀ x ∈ p, actual x = some (f x)) →
          ∀ (fuel : Nat) (path : List Nat), d ≤ fuel →
            backtrack actual prev fuel v path = some (p.map f ++ path) := by
  induction d with
  | zero =>
    intro v hv hd
    have : v = s := by
      by_contra hne
      obtain ⟨_, e, _, _, h3, _⟩ := h.link v 0 hd hne
      omega
    subst this
    refine ⟨[], rfl, List.isChain_singleton _, rfl, by simp, ?_, by simp, ?_⟩
    · intro x hx
      simp at hx
      exact ⟨0, hx ▸ hd, le_refl _⟩
    · intro actual f _ fuel path _
      unfold backtrack
      rw [h.sp]
      rfl
  | succ d ih =>
    intro v hv hd
    have hvs : v ≠ s := by
      rintro rfl
      rw [h.s0] at hd
      simp at hd
    obtain ⟨u, e, c1, c2, c3, c4, c5, c6⟩ := h.link v _ hd hvs
    have : e = d := by omega
    subst this
    obtain ⟨p, b1, b2, b3, b4, b5, b6, b7⟩ := ih u c6 c2
    refine ⟨p ++ [v], by simp [b1], ?_, ?_, ?_, ?_, ?_, ?_⟩
    · rw [← List.cons_append, List.isChain_append]
      refine ⟨b2, List.isChain_singleton _, ?_⟩
      intro x hx y hy
      rw [b3] at hx
      simp at hx hy
      rw [← hx, ← hy]
      exact c4
    · rw [← List.cons_append, List.getLast?_concat]
    · intro x hx
      rw [← List.cons_append, List.mem_append] at hx
      rcases hx with hx | hx
      · exact b4 x hx
      · simp at hx; exact Or.inl (hx ▸ hv)
    · intro x hx
      rw [← List.cons_append, List.mem_append] at hx
      rcases hx with hx | hx
      · obtain ⟨e', h1, h2⟩ := b5 x hx
        exact ⟨e', h1, by omega⟩
      · simp at hx; exact ⟨e + 1, hx ▸ hd, le_refl _⟩
    · rw [← List.cons_append, List.nodup_append]
      refine ⟨b6, by simp, ?_⟩
      intro x hx y hy hxy
      simp at hy
      subst hy
      subst hxy
      obtain ⟨e', h1, h2⟩ := b5 x hx
      rw [hd] at h1
      simp at h1
      omega
    · intro actual f hf fuel path hfu
      unfold backtrack
      rw [c1]
      cases fuel with
      | zero => omega
      | succ fuel =>
        simp only
        rw [hf v (by simp)]
        simp only
        rw [b7 actual f (fun x hx => hf x (by simp [hx])) fuel _ (by omega)]
        simp

theorem DInv.dist_lt {R : Nat → Nat → Prop} {m s : Nat} {Q : List Nat} {dist prev : List (Option Nat)}
    (h : DInv R m s Q dist prev) (hs : s < m) (d v : Nat) (hv : v < m) (hd : dist[v]? = some (some d)) : d < m := by
  obtain ⟨p, b1, _, _, b4, _, b6, _⟩ := h.trace d v hv hd
  have : (s :: p).length ≤ (List.range m).length := by
    refine (List.subperm_of_subset b6 ?_).length_le
    intro x hx
    rcases b4 x hx with h' | h'
    · simpa using h'
    · subst h'; simpa using hs
  simp [b1] at this
  omega

/-- Walks given as lists. -/
theorem walkR_of_list (R : Nat → Nat → Prop) (s : Nat) (p : List Nat) :
    ∀ t, (s :: p).IsChain R → (s :: p).getLast? = some t → WalkR R s t p.length := by
  induction p using List.reverseRecOn with
  | nil =>
    intro t _ h
    simp at h
    subst h
    exact WalkR.nil
  | append_singleton p x ih =>
    intro t hc h
    rw [← List.cons_append] at hc h
    rw [List.isChain_append] at hc
    have ht : x = t := by rw [List.getLast?_concat] at h; simpa using h
    subst ht
    have hne : (s :: p).getLast? = some ((s :: p).getLast (by simp)) := List.getLast?_eq_some_getLast (by simp)
    have := WalkR.snoc (ih _ hc.1 hne) (hc.2.2 _ hne x (by simp))
    simpa using this

end FG
end OpenGM
