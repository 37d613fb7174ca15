import Verif.Lemmas.BPSchedule
import Verif.Lemmas.GraphicalModel
/-
The state of the message passing object: shapes of buffers, pointers, contents of the messages sent, and the loops of inferAcyclic.
-/
namespace OpenGM.MessagePassing
open Spec BP
variable {V : Type}

/-- The neighbours of variables and factors, as a model stores them. -/
structure Net (gm : GM V) (NV NF : Nat → List Nat) : Prop where
  adj : ∀ v, v < gm.numLabels.length → gm.adj[v]? = some (NV v)
  adjLen : gm.adj.length = gm.numLabels.length
  scope : ∀ (f : Nat) (rec : FactorRec), gm.factors[f]? = some rec → gm.scope rec = NF f ∧ rec.visSize = (NF f).length ∧ ∀ i v : Nat, (NF f)[i]? = some v → gm.visAt rec i = some v
  mem : ∀ v f, f ∈ NV v ↔ v ∈ NF f
  nodupV : ∀ v, (NV v).Nodup
  nodupF : ∀ f, (NF f).Nodup
  rangeV : ∀ v f, v ∈ NF f → v < gm.numLabels.length
  rangeF : ∀ v f, v ∈ NF f → f < gm.factors.length

/-- Shapes of the buffers, pointers; the messages of a variable with one factor are neutral. -/
structure Inv (r : Rules V) (gm : GM V) (NV NF : Nat → List Nat) (s : MP V) : Prop where
  model : s.gm = gm
  varLen : ∀ v, v < gm.numLabels.length → ∃ row : List (Buffer V), s.varIn[v]? = some row ∧ row.length = (NV v).length
  facLen : ∀ f, f < gm.factors.length → ∃ row : List (Buffer V), s.facIn[f]? = some row ∧ row.length = (NF f).length
  varBuf : ∀ v j b, getBuffer s.varIn v j = some b → b.buffer1.length = gm.numLabels.getD v 0 ∧ b.buffer2.length = gm.numLabels.getD v 0
  facBuf : ∀ (f i v : Nat) b, (NF f)[i]? = some v → getBuffer s.facIn f i = some b → b.buffer1.length = gm.numLabels.getD v 0 ∧ b.buffer2.length = gm.numLabels.getD v 0 ∧
    ((NV v).length < 2 → b.buffer1 = List.replicate (gm.numLabels.getD v 0) r.o.neutral ∧ b.buffer2 = List.replicate (gm.numLabels.getD v 0) r.o.neutral)
  varOut : ∀ v j f : Nat, (NV v)[j]? = some f → ∃ i : Nat, (NF f)[i]? = some v ∧ getPointer s.varOut v j = some (f, i)
  facOut : ∀ f i v : Nat, (NF f)[i]? = some v → ∃ j : Nat, (NV v)[j]? = some f ∧ getPointer s.facOut f i = some (v, j)

/-- What the messages sent satisfy. -/
def ContV (GV : Nat → Nat → List V → Prop) (NF : Nat → List Nat) (s : MP V) (sV : Finset (Nat × Nat)) : Prop :=
  ∀ v f, (v, f) ∈ sV → ∀ i : Nat, (NF f)[i]? = some v → ∃ b, getBuffer s.facIn f i = some b ∧ GV v f b.current

def ContF (GF : Nat → Nat → List V → Prop) (NV : Nat → List Nat) (s : MP V) (sF : Finset (Nat × Nat)) : Prop :=
  ∀ f v, (f, v) ∈ sF → ∀ j : Nat, (NV v)[j]? = some f → ∃ b, getBuffer s.varIn v j = some b ∧ GF f v b.current

/-- The update rules keep what the messages satisfy. -/
structure Closed (r : Rules V) (gm : GM V) (norm : Bool) (NV NF : Nat → List Nat) (GV GF : Nat → Nat → List V → Prop) : Prop where
  lenV : ∀ v f row, GV v f row → row.length = gm.numLabels.getD v 0
  lenF : ∀ f v row, GF f v row → row.length = gm.numLabels.getD v 0
  var : ∀ v j f : Nat, (NV v)[j]? = some f → ∀ rows : Nat → List V, (∀ g ∈ NV v, g ≠ f → GF g v (rows g)) →
    ∃ out, operate r.o (gm.numLabels.getD v 0) (((NV v).map rows).eraseIdx j) = some out ∧ GV v f out
  one : ∀ v f, NV v = [f] → GV v f (List.replicate (gm.numLabels.getD v 0) r.o.neutral)
  fac : ∀ (f i v : Nat) (rec : FactorRec), (NF f)[i]? = some v → gm.factors[f]? = some rec → ∀ rows : Nat → List V, (∀ w ∈ NF f, w ≠ v → GV w f (rows w)) →
    ∃ out, operateF r gm rec ((NF f).map rows) i (gm.numLabels.getD v 0) = some out ∧ GF f v (if norm then normalize r out else out)

variable {r : Rules V} {gm : GM V} {NV NF : Nat → List Nat} {GV GF : Nat → Nat → List V → Prop} {norm : Bool}

theorem Buffer.write_current (b : Buffer V) (m : List V) : (b.write m).current = m := by
  unfold Buffer.write Buffer.current
  cases h : b.flag <;> simp [h]

theorem modifyBuffer_eq {bs : List (List (Buffer V))} {v j : Nat} {b : Buffer V} (h : getBuffer bs v j = some b) (b' : Buffer V) :
    ∃ bs', modifyBuffer bs v j b' = some bs' ∧ (∀ (w : Nat) (row : List (Buffer V)), bs[w]? = some row → ∃ row' : List (Buffer V), bs'[w]? = some row' ∧ row'.length = row.length) ∧
      ∀ w k : Nat, getBuffer bs' w k = if w = v ∧ k = j then some b' else getBuffer bs w k := by
  unfold getBuffer at h
  cases hv : bs[v]? with
  | none => rw [hv] at h; simp at h
  | some row =>
    rw [hv] at h
    simp at h
    have hj := (List.getElem?_eq_some_iff.mp h).1
    have hvl := (List.getElem?_eq_some_iff.mp hv).1
    refine ⟨bs.set v (row.set j b'), by simp [modifyBuffer, hv, setAt_of_lt _ hj], ?_, ?_⟩
    · intro w row' hw
      by_cases hwv : v = w
      · subst hwv
        rw [hv] at hw
        cases hw
        exact ⟨_, List.getElem?_set_self hvl, by simp⟩
      · exact ⟨row', by rw [List.getElem?_set_ne hwv]; exact hw, rfl⟩
    · intro w k
      unfold getBuffer
      by_cases hwv : v = w
      · subst hwv
        rw [List.getElem?_set_self hvl, hv]
        simp only [Option.bind_some, true_and]
        by_cases hkj : j = k
        · subst hkj
          rw [List.getElem?_set_self hj]; simp
        · rw [List.getElem?_set_ne hkj, if_neg (Ne.symm hkj)]
      · rw [List.getElem?_set_ne hwv, if_neg (fun h => hwv h.1.symm)]

/-- Messages as a function of the sender. -/
theorem rows_exist {L : List Nat} (hn : L.Nodup) {ins : List (Buffer V)} (hlen : ins.length = L.length) :
    ∃ rows : Nat → List V, ins.map Buffer.current = L.map rows ∧ ∀ (j g : Nat) (b : Buffer V), L[j]? = some g → ins[j]? = some b → rows g = b.current := by
  have key : ∀ (j g : Nat) (b : Buffer V), L[j]? = some g → ins[j]? = some b → (((ins[L.idxOf g]?).map Buffer.current).getD []) = b.current := by
    intro j g b h1 h2
    obtain ⟨hj, e⟩ := List.getElem?_eq_some_iff.mp h1
    have : L.idxOf g = j := by rw [← e]; exact hn.idxOf_getElem j hj
    rw [this, h2]; rfl
  refine ⟨fun g => ((ins[L.idxOf g]?).map Buffer.current).getD [], ?_, key⟩
  apply List.ext_getElem?
  intro j
  rw [List.getElem?_map, List.getElem?_map]
  cases h1 : L[j]? with
  | none =>
    have : ins[j]? = none := by rw [List.getElem?_eq_none_iff] at h1 ⊢; omega
    rw [this]; rfl
  | some g =>
    have hj : j < ins.length := by rw [hlen]; exact (List.getElem?_eq_some_iff.mp h1).1
    have h2 := List.getElem?_eq_getElem hj
    rw [h2]
    simp only [Option.map_some]
    rw [key j g _ h1 h2]

theorem getBuffer_lt {bs : List (List (Buffer V))} {v j : Nat} {row : List (Buffer V)} (h : bs[v]? = some row) (hj : j < row.length) : ∃ b, row[j]? = some b ∧ getBuffer bs v j = some b :=
  ⟨row[j], List.getElem?_eq_getElem hj, by simp [getBuffer, h, List.getElem?_eq_getElem hj]⟩

theorem idx_unique {L : List Nat} (hn : L.Nodup) {i j v : Nat} (h1 : L[i]? = some v) (h2 : L[j]? = some v) : i = j := by
  obtain ⟨_, e1⟩ := List.getElem?_eq_some_iff.mp h1
  obtain ⟨_, e2⟩ := List.getElem?_eq_some_iff.mp h2
  exact hn.getElem_inj_iff.mp (e1.trans e2.symm)

theorem toggle_current_length {b : Buffer V} {n : Nat} (h : b.buffer1.length = n ∧ b.buffer2.length = n) : b.toggle.current.length = n := by
  unfold Buffer.toggle Buffer.current
  cases hb : b.flag <;> simp [h.1, h.2]

theorem write_length {b : Buffer V} {m : List V} {n : Nat} (h : b.buffer1.length = n ∧ b.buffer2.length = n) (hm : m.length = n) :
    (b.toggle.write m).buffer1.length = n ∧ (b.toggle.write m).buffer2.length = n := by
  unfold Buffer.toggle Buffer.write
  cases hb : b.flag <;> simp [h.1, h.2, hm]

theorem propagateVariable_ok (hN : Net gm NV NF) (hC : Closed r gm norm NV NF GV GF) {s : MP V} (hI : Inv r gm NV NF s) {sV sF : Finset (Nat × Nat)}
    (hcV : ContV GV NF s sV) (hcF : ContF GF NV s sF) {v j f : Nat} (hj : (NV v)[j]? = some f) (hm : missing (NV v) sF v f = 0) :
    ∃ s', propagateVariable r s v j = some s' ∧ Inv r gm NV NF s' ∧ ContV GV NF s' (insert (v, f) sV) ∧ ContF GF NV s' sF ∧
      s'.isAcyclic = s.isAcyclic ∧ s'.useNormalization = s.useNormalization := by
  have hf : v ∈ NF f := (hN.mem v f).mp (List.mem_of_getElem? hj)
  obtain ⟨ins, hins, hil⟩ := hI.varLen v (hN.rangeV v f hf)
  obtain ⟨i, hi, hp⟩ := hI.varOut v j f hj
  obtain ⟨frow, hfrow, hfl⟩ := hI.facLen f (hN.rangeF v f hf)
  obtain ⟨b, hb, hgb⟩ := getBuffer_lt hfrow (by rw [hfl]; exact (List.getElem?_eq_some_iff.mp hi).1)
  obtain ⟨hb1, hb2, hb3⟩ := hI.facBuf f i v b hi hgb
  -- the invariant after a change of this buffer
  have fin : ∀ b', b'.buffer1.length = gm.numLabels.getD v 0 → b'.buffer2.length = gm.numLabels.getD v 0 →
      ((NV v).length < 2 → b'.buffer1 = List.replicate (gm.numLabels.getD v 0) r.o.neutral ∧ b'.buffer2 = List.replicate (gm.numLabels.getD v 0) r.o.neutral) →
      GV v f b'.current → ∃ s', (modifyBuffer s.facIn f i b').map (fun facIn => { s with facIn := facIn }) = some s' ∧ Inv r gm NV NF s' ∧ ContV GV NF s' (insert (v, f) sV) ∧ ContF GF NV s' sF ∧
      s'.isAcyclic = s.isAcyclic ∧ s'.useNormalization = s.useNormalization := by
    intro b' l1 l2 l3 hG
    obtain ⟨bs', e1, e2, e3⟩ := modifyBuffer_eq hgb b'
    refine ⟨{ s with facIn := bs' }, by rw [e1]; rfl, ?_, ?_, ?_, rfl, rfl⟩
    · refine ⟨hI.model, hI.varLen, ?_, hI.varBuf, ?_, hI.varOut, hI.facOut⟩
      · intro f2 hf2
        obtain ⟨row, h1, h2⟩ := hI.facLen f2 hf2
        obtain ⟨row', h3, h4⟩ := e2 f2 row h1
        exact ⟨row', h3, h4.trans h2⟩
      · intro f2 i2 v2 b2 h1 h2
        simp only at h2
        rw [e3] at h2
        split at h2
        · rename_i e
          obtain ⟨rfl, rfl⟩ := e
          cases h2
          rw [hi] at h1
          cases h1
          exact ⟨l1, l2, l3⟩
        · exact hI.facBuf f2 i2 v2 b2 h1 h2
    · intro v2 f2 h1 i2 h2
      simp only
      rw [e3]
      by_cases e : f2 = f ∧ i2 = i
      · rw [if_pos e]
        obtain ⟨rfl, rfl⟩ := e
        rw [hi] at h2
        cases h2
        exact ⟨b', rfl, hG⟩
      · rw [if_neg e]
        rcases Finset.mem_insert.mp h1 with h1 | h1
        · simp only [Prod.mk.injEq] at h1
          obtain ⟨rfl, rfl⟩ := h1
          exact absurd ⟨rfl, idx_unique (hN.nodupF f2) h2 hi⟩ e
        · exact hcV v2 f2 h1 i2 h2
    · exact hcF
  unfold propagateVariable
  rw [hp, hins]
  simp only
  rw [hgb]
  simp only
  by_cases h2 : ins.length < 2
  · rw [if_pos h2]
    have h2' : (NV v).length < 2 := by omega
    obtain ⟨r1, r2⟩ := hb3 h2'
    apply fin b.toggle hb1 hb2 (fun _ => ⟨r1, r2⟩)
    have e : NV v = [f] := by
      have hlt := (List.getElem?_eq_some_iff.mp hj).1
      match hL : NV v with
      | [] => rw [hL] at hlt; simp at hlt
      | [g] =>
        rw [hL] at hj
        cases j with
        | zero => simpa using hj
        | succ j => simp at hj
      | a :: b :: c => rw [hL] at h2'; simp at h2'
    have : b.toggle.current = List.replicate (gm.numLabels.getD v 0) r.o.neutral := by
      unfold Buffer.toggle Buffer.current
      cases b.flag <;> simp [r1, r2]
    rw [this]
    exact hC.one v f e
  · rw [if_neg h2, toggle_current_length ⟨hb1, hb2⟩]
    obtain ⟨rows, er, hrows⟩ := rows_exist (hN.nodupV v) hil
    obtain ⟨out, eo, hG⟩ := hC.var v j f hj rows (by
      intro g hg hne
      have hs := (missing_zero.mp hm) g hg hne
      obtain ⟨j', hj'⟩ := List.mem_iff_getElem?.mp hg
      obtain ⟨b', hb', hG'⟩ := hcF g v hs j' hj'
      have : ins[j']? = some b' := by simpa [getBuffer, hins] using hb'
      rw [hrows j' g b' hj' this]
      exact hG')
    rw [er, eo]
    simp only
    have hlen := write_length ⟨hb1, hb2⟩ (hC.lenV _ _ _ hG)
    apply fin (b.toggle.write out) hlen.1 hlen.2 (fun h => by omega)
    rw [Buffer.write_current]
    exact hG

theorem propagateFactor_ok (hN : Net gm NV NF) (hC : Closed r gm norm NV NF GV GF) {s : MP V} (hI : Inv r gm NV NF s) (hnorm : s.useNormalization = norm) {sV sF : Finset (Nat × Nat)}
    (hcV : ContV GV NF s sV) (hcF : ContF GF NV s sF) {f i v : Nat} (hi : (NF f)[i]? = some v) (hm : missing (NF f) sV f v = 0) :
    ∃ s', propagateFactor r s f i = some s' ∧ Inv r gm NV NF s' ∧ ContV GV NF s' sV ∧ ContF GF NV s' (insert (f, v) sF) ∧
      s'.isAcyclic = s.isAcyclic ∧ s'.useNormalization = s.useNormalization := by
  have hf : v ∈ NF f := List.mem_of_getElem? hi
  obtain ⟨ins, hins, hil⟩ := hI.facLen f (hN.rangeF v f hf)
  obtain ⟨j, hj, hp⟩ := hI.facOut f i v hi
  obtain ⟨vrow, hvrow, hvl⟩ := hI.varLen v (hN.rangeV v f hf)
  obtain ⟨b, hb, hgb⟩ := getBuffer_lt hvrow (by rw [hvl]; exact (List.getElem?_eq_some_iff.mp hj).1)
  have hbl := hI.varBuf v j b hgb
  obtain ⟨rec, hrec⟩ : ∃ rec, gm.factors[f]? = some rec := ⟨_, List.getElem?_eq_getElem (hN.rangeF v f hf)⟩
  obtain ⟨rows, er, hrows⟩ := rows_exist (hN.nodupF f) hil
  obtain ⟨out, eo, hG⟩ := hC.fac f i v rec hi hrec rows (by
    intro w hw hne
    have hs := (missing_zero.mp hm) w hw hne
    obtain ⟨j', hj'⟩ := List.mem_iff_getElem?.mp hw
    obtain ⟨b', hb', hG'⟩ := hcV w f hs j' hj'
    have : ins[j']? = some b' := by simpa [getBuffer, hins] using hb'
    rw [hrows j' w b' hj' this]
    exact hG')
  unfold propagateFactor
  rw [hp, hins, hI.model, hrec]
  simp only
  rw [hgb]
  simp only
  rw [toggle_current_length hbl, er, eo]
  simp only
  rw [hnorm]
  have hlen := write_length hbl (hC.lenF _ _ _ hG)
  obtain ⟨bs', e1, e2, e3⟩ := modifyBuffer_eq hgb (b.toggle.write (if norm = true then normalize r out else out))
  refine ⟨{ s with varIn := bs' }, by rw [e1]; simp [hI.model, hnorm], ?_, hcV, ?_, rfl, by simp [hnorm]⟩
  · refine ⟨hI.model, ?_, hI.facLen, ?_, hI.facBuf, hI.varOut, hI.facOut⟩
    · intro v2 hv2
      obtain ⟨row, h1, h2⟩ := hI.varLen v2 hv2
      obtain ⟨row', h3, h4⟩ := e2 v2 row h1
      exact ⟨row', h3, h4.trans h2⟩
    · intro v2 j2 b2 h2
      simp only at h2
      rw [e3] at h2
      split at h2
      · rename_i e
        obtain ⟨rfl, rfl⟩ := e
        cases h2
        exact hlen
      · exact hI.varBuf v2 j2 b2 h2
  · intro f2 v2 h1 j2 h2
    simp only
    rw [e3]
    by_cases e : v2 = v ∧ j2 = j
    · rw [if_pos e]
      obtain ⟨rfl, rfl⟩ := e
      rw [hj] at h2
      cases h2
      exact ⟨_, rfl, by rw [Buffer.write_current]; exact hG⟩
    · rw [if_neg e]
      rcases Finset.mem_insert.mp h1 with h1 | h1
      · simp only [Prod.mk.injEq] at h1
        obtain ⟨rfl, rfl⟩ := h1
        exact absurd ⟨rfl, idx_unique (hN.nodupV v2) h2 hj⟩ e
      · exact hcF f2 v2 h1 j2 h2

/-! ### The loops -/

/-- State and schedule. -/
structure J (r : Rules V) (gm : GM V) (norm : Bool) (NV NF : Nat → List Nat) (GV GF : Nat → Nat → List V → Prop) (s : MP V) (sV sF : Finset (Nat × Nat))
    (cV cF : List (List Nat)) (rV rF : List (Nat × Nat)) : Prop where
  inv : Inv r gm NV NF s
  contV : ContV GV NF s sV
  contF : ContF GF NV s sF
  flag : s.useNormalization = norm
  halfV : Half NV gm.numLabels.length sV sF cV rV
  halfF : Half NF gm.factors.length sF sV cF rF

theorem drainVariables_ok (hN : Net gm NV NF) (hC : Closed r gm norm NV NF GV GF) {sF : Finset (Nat × Nat)} {cV : List (List Nat)} :
    ∀ {rV : List (Nat × Nat)} {s : MP V} {sV : Finset (Nat × Nat)} {cF : List (List Nat)} {rF : List (Nat × Nat)}, J r gm norm NV NF GV GF s sV sF cV cF rV rF →
      ∃ s' sV' cF' rF', drainVariables r rV s cF rF = some (s', cF', rF') ∧ J r gm norm NV NF GV GF s' sV' sF cV cF' [] rF' ∧
        sV'.card = sV.card + rV.length ∧ rF.length ≤ rF'.length ∧ s'.isAcyclic = s.isAcyclic
  | [], s, sV, cF, rF, hJ => ⟨s, sV, cF, rF, rfl, hJ, rfl, Nat.le_refl _, rfl⟩
  | (v, j) :: rest, s, sV, cF, rF, hJ => by
    obtain ⟨f, hj, hns, hmiss⟩ := hJ.halfV.canSend v j (by simp)
    have hf : v ∈ NF f := (hN.mem v f).mp (List.mem_of_getElem? hj)
    have hvl := hN.rangeV v f hf
    have hfl := hN.rangeF v f hf
    obtain ⟨s1, p1, p2, p3, p4, p5, p6⟩ := propagateVariable_ok hN hC hJ.inv hJ.contV hJ.contF hj hmiss
    obtain ⟨l, l', new, q1, q2, q3⟩ := hJ.halfF.recv hN.nodupF hf hfl hns
    have hJ' : J r gm norm NV NF GV GF s1 (insert (v, f) sV) sF cV (cF.set f l') rest ((new.map (fun i => (f, i))).reverse ++ rF) :=
      ⟨p2, p3, p4, p6.trans hJ.flag, hJ.halfV.send hN.nodupV hj, q3⟩
    obtain ⟨s', sV', cF', rF', e1, e2, e3, e4, e5⟩ := drainVariables_ok hN hC hJ'
    refine ⟨s', sV', cF', rF', ?_, e2, ?_, ?_, e5.trans p5⟩
    · rw [drainVariables, hJ.inv.model, hN.adj v hvl]
      simp only [Option.bind_some]
      rw [hj]
      simp only
      obtain ⟨rec, hrec⟩ : ∃ rec, gm.factors[f]? = some rec := ⟨_, List.getElem?_eq_getElem hfl⟩
      rw [p1, hrec, q1]
      simp only
      rw [(hN.scope f rec hrec).1, q2]
      exact e1
    · rw [e3, Finset.card_insert_of_notMem hns]
      simp only [List.length_cons]
      omega
    · simp only [List.length_append] at e4
      omega

theorem drainFactors_ok (hN : Net gm NV NF) (hC : Closed r gm norm NV NF GV GF) {sV : Finset (Nat × Nat)} {cF : List (List Nat)} :
    ∀ {rF : List (Nat × Nat)} {s : MP V} {sF : Finset (Nat × Nat)} {cV : List (List Nat)} {rV : List (Nat × Nat)}, J r gm norm NV NF GV GF s sV sF cV cF rV rF →
      ∃ s' sF' cV' rV', drainFactors r rF s cV rV = some (s', cV', rV') ∧ J r gm norm NV NF GV GF s' sV sF' cV' cF rV' [] ∧
        sF'.card = sF.card + rF.length ∧ s'.isAcyclic = s.isAcyclic
  | [], s, sF, cV, rV, hJ => ⟨s, sF, cV, rV, rfl, hJ, rfl, rfl⟩
  | (f, i) :: rest, s, sF, cV, rV, hJ => by
    obtain ⟨v, hi, hns, hmiss⟩ := hJ.halfF.canSend f i (by simp)
    have hf : v ∈ NF f := List.mem_of_getElem? hi
    have hvl := hN.rangeV v f hf
    have hfl := hN.rangeF v f hf
    obtain ⟨s1, p1, p2, p3, p4, p5, p6⟩ := propagateFactor_ok hN hC hJ.inv hJ.flag hJ.contV hJ.contF hi hmiss
    obtain ⟨l, l', new, q1, q2, q3⟩ := hJ.halfV.recv hN.nodupV ((hN.mem v f).mpr hf) hvl hns
    have hJ' : J r gm norm NV NF GV GF s1 sV (insert (f, v) sF) (cV.set v l') cF ((new.map (fun j => (v, j))).reverse ++ rV) rest :=
      ⟨p2, p3, p4, p6.trans hJ.flag, q3, hJ.halfF.send hN.nodupF hi⟩
    obtain ⟨s', sF', cV', rV', e1, e2, e3, e4⟩ := drainFactors_ok hN hC hJ'
    refine ⟨s', sF', cV', rV', ?_, e2, ?_, e4.trans p5⟩
    · obtain ⟨rec, hrec⟩ : ∃ rec, gm.factors[f]? = some rec := ⟨_, List.getElem?_eq_getElem hfl⟩
      rw [drainFactors, hJ.inv.model, hrec]
      simp only [Option.bind_some]
      rw [(hN.scope f rec hrec).2.2 i v hi]
      simp only
      rw [p1, hN.adj v hvl, q1]
      simp only
      rw [q2]
      exact e1
    · rw [e3, Finset.card_insert_of_notMem hns]
      simp only [List.length_cons]
      omega

theorem rounds_ok (hN : Net gm NV NF) (hC : Closed r gm norm NV NF GV GF) {M : Nat} (hM : ∀ S : Finset (Nat × Nat), (∀ f v, (f, v) ∈ S → v ∈ NF f) → S.card ≤ M) (visit : Nat → Bool) :
    ∀ {fuel k : Nat} {s : MP V} {sV sF : Finset (Nat × Nat)} {c : Schedule}, J r gm norm NV NF GV GF s sV sF c.counterVar2Fac c.counterFac2Var c.readyVar2Fac c.readyFac2Var →
      2 * M < fuel + (sV.card + sF.card) →
      ∃ s', rounds r visit fuel k s c = some s' ∧ Inv r gm NV NF s' ∧ s'.useNormalization = norm ∧ s'.isAcyclic = s.isAcyclic ∧
        ((∀ k, visit k = false) → ∃ sV sF cV cF, J r gm norm NV NF GV GF s' sV sF cV cF [] [])
  | fuel, k, s, sV, sF, ⟨cV, cF, rV, rF⟩, hJ, hfuel => by
    simp only at hJ
    have hbV : sV.card ≤ M := by
      rw [← Finset.card_map ⟨Prod.swap, Prod.swap_injective⟩]
      apply hM
      intro f v hm
      rw [Finset.mem_map] at hm
      obtain ⟨⟨a, b⟩, h1, h2⟩ := hm
      simp only [Function.Embedding.coeFn_mk, Prod.swap_prod_mk, Prod.mk.injEq] at h2
      obtain ⟨rfl, rfl⟩ := h2
      exact (hN.mem a b).mp (hJ.halfV.sent a b h1).1
    have hbF : sF.card ≤ M := hM sF (fun f v hm => (hJ.halfF.sent f v hm).1)
    cases fuel with
    | zero => omega
    | succ fuel =>
      rw [rounds]
      simp only
      by_cases he : rV.isEmpty && rF.isEmpty
      · rw [if_pos he]
        simp only [Bool.and_eq_true, List.isEmpty_iff] at he
        obtain ⟨rfl, rfl⟩ := he
        exact ⟨s, rfl, hJ.inv, hJ.flag, rfl, fun _ => ⟨sV, sF, cV, cF, hJ⟩⟩
      · rw [if_neg he]
        obtain ⟨s1, sV1, cF1, rF1, e1, j1, c1, l1, a1⟩ := drainVariables_ok hN hC hJ
        obtain ⟨s2, sF2, cV2, rV2, e2, j2, c2, a2⟩ := drainFactors_ok hN hC j1
        rw [e1]
        simp only
        rw [e2]
        simp only
        by_cases hv : visit k
        · rw [if_pos hv]
          refine ⟨s2, rfl, j2.inv, j2.flag, a2.trans a1, fun h => ?_⟩
          rw [h k] at hv
          simp at hv
        · rw [if_neg hv]
          have hpos : 0 < rV.length + rF.length := by
            rcases rV with _ | ⟨a, rV⟩
            · rcases rF with _ | ⟨b, rF⟩
              · simp at he
              · simp
            · simp
          obtain ⟨s', g1, g2, g3, g4, g5⟩ := rounds_ok hN hC hM visit (fuel := fuel) (k := k + 1) (s := s2) (sV := sV1) (sF := sF2) (c := ⟨cV2, cF1, rV2, []⟩) j2 (by omega)
          exact ⟨s', g1, g2, g3, g4.trans (a2.trans a1), g5⟩

end OpenGM.MessagePassing
