import Verif.Lemmas.RegevSteps3
import Verif.Spec.RegevSetup

namespace Verif
open Spec Regev
open scoped BigOperators

section
variable {q : ℕ} [Fact q.Prime]

/-- All positions of the layout as numbers. -/
structure Lay (ix : Indexes) (kay enn tee : ℕ) : Prop where
  dCompHi : ix.dCompHi = 260 * 0
  dPadHi : ix.dPadHi = 260 * 0 + 256
  dCompLo : ix.dCompLo = 260 * 1
  dPadLo : ix.dPadLo = 260 * 1 + 256
  rComp : ix.rComp = 260 * 2
  rPad : ix.rPad = 260 * 2 + 256
  eComp1Hi : ix.eComp1Hi = 260 * 3
  ePad1Hi : ix.ePad1Hi = 260 * 3 + 256
  eComp1Lo : ix.eComp1Lo = 260 * 4
  ePad1Lo : ix.ePad1Lo = 260 * 4 + 256
  eComp2Hi : ix.eComp2Hi = 260 * 5
  ePad2Hi : ix.ePad2Hi = 260 * 5 + 256
  eComp2Lo : ix.eComp2Lo = 260 * 6
  ePad2Lo : ix.ePad2Lo = 260 * 6 + 256
  sk2Comp : ix.sk2Comp = 260 * 7
  sk2Pad : ix.sk2Pad = 260 * 7 + 256
  kCompHi : ix.kCompHi = 260 * 8
  kPadHi : ix.kPadHi = 260 * 8 + 256
  kCompLo : ix.kCompLo = 260 * 9
  kPadLo : ix.kPadLo = 260 * 9 + 256
  sk : (ix.sk1 = 2600 ∧ ix.sk2 = 2600 + kay * 2) ∨ (ix.sk2 = 2600 ∧ ix.sk1 = 2600 + kay * 2)
  r : ix.r = 2600 + kay * 2 + kay * 2
  pt1 : ix.pt1 = 2600 + kay * 2 + kay * 2 + kay * 2
  pt2 : ix.pt2 = 2600 + kay * 2 + kay * 2 + kay * 2 + tee
  y : ix.y = 2600 + kay * 2 + kay * 2 + kay * 2 + tee + enn
  w : ix.w = 2600 + kay * 2 + kay * 2 + kay * 2 + tee + enn + 128

theorem lay_of {ix : Indexes} {kay enn tee : ℕ} (h : IsLayout ix kay 2 enn tee) : Lay ix kay enn tee := by
  rcases h with rfl | rfl
  · constructor <;> simp [setIndexesNat, JLDIM, PAD_SIZE, LINYDIM]
  · constructor <;> simp [setIndexesNat, JLDIM, PAD_SIZE, LINYDIM, Indexes.swapSk]

/-! ### Pairs of a compressed vector and its padding -/

/-- The two vectors of block `k`. -/
def pairWrites (L : List (ℕ × Padded q)) : List (ℕ × List (ZMod q)) :=
  L.flatMap fun p => [(260 * p.1, coeffs p.2.comp), (260 * p.1 + 256, coeffs p.2.pad)]

/-- Copying of several pairs into `compressed`. -/
def CopiedAll : EVec q 2 → List (ℕ × Padded q) → EVec q 2 → Prop
  | out, [], out' => out = out'
  | out, p :: L, out' => ∃ mid : EVec q 2, (∀ j, mid[j]? =
      if 130 * p.1 ≤ j ∧ j < 130 * p.1 + 130 then (p.2.comp ++ p.2.pad)[j - 130 * p.1]? else out[j]?) ∧
      CopiedAll mid L out'

/-- What is true of each padded vector. -/
def PadOk (P : Params q) (tests : ℕ → Tests) (p : ℕ × Padded q) : Prop :=
  p.1 < 10 ∧ p.2.comp.length = 128 ∧ p.2.pad.length = 2 ∧
  (normSq (coeffs (p.2.comp ++ p.2.pad)) = normBound P p.1 ^ 2 ∨
    FourSq.decompose4 (tests p.1).single (tests p.1).probPrime
      (normBound P p.1 ^ 2 - normSq (coeffs p.2.comp)) = .ok [-1, -1, -1, -1]) ∧
  normSq (coeffs (p.2.comp ++ p.2.pad)) ≤ normBound P p.1 ^ 2 + 4

theorem copiedAll_other {P : Params q} {tests : ℕ → Tests} {x : ℕ → ZMod q} {l : ℕ} :
    ∀ (L : List (ℕ × Padded q)) {out out' : EVec q 2}, CopiedAll out L out' →
    (∀ p ∈ L, p.1 ≠ l) → CompHolds out x l → CompHolds out' x l := by
  intro L
  induction L with
  | nil => intro out out' h _ hc; rw [← show out = out' from h]; exact hc
  | cons p L ih =>
    rintro out out' ⟨mid, h1, h2⟩ hp hc
    exact ih h2 (fun p' hp' => hp p' (List.mem_cons_of_mem _ hp'))
      (hc.other (hp p List.mem_cons_self) h1)

theorem copiedAll_new {P : Params q} {tests : ℕ → Tests} {x : ℕ → ZMod q} :
    ∀ (L : List (ℕ × Padded q)) {out out' : EVec q 2}, CopiedAll out L out' →
    (L.map Prod.fst).Nodup → (∀ p ∈ L, PadOk P tests p) →
    (∀ p ∈ pairWrites L, Reads x p.1 p.2) → ∀ p ∈ L, CompHolds out' x p.1 := by
  intro L
  induction L with
  | nil => intro out out' h _ _ _ p hp; cases hp
  | cons p0 L ih =>
    rintro out out' ⟨mid, h1, h2⟩ hn hok hr p hp
    rw [List.map_cons, List.nodup_cons] at hn
    have hr' : ∀ p ∈ pairWrites L, Reads x p.1 p.2 := fun p hp => hr p (by
      unfold pairWrites at hp ⊢; rw [List.flatMap_cons]; exact List.mem_append_right _ hp)
    rcases List.mem_cons.1 hp with rfl | hp
    · obtain ⟨_, g2, g3, _⟩ := hok p List.mem_cons_self
      apply copiedAll_other (P := P) (tests := tests) L h2
      · intro p' hp' he
        exact hn.1 (he ▸ List.mem_map_of_mem hp')
      · exact compHolds_of g2 g3 h1
          (hr (260 * p.1, coeffs p.2.comp) (by simp [pairWrites]))
          (hr (260 * p.1 + 256, coeffs p.2.pad) (by simp [pairWrites]))
    · exact ih h2 hn.2 (fun p' hp' => hok p' (List.mem_cons_of_mem _ hp')) hr' p hp

/-- The list of norm constraints after several have been recorded. -/
def normAll (P : Params q) (norm : List (QuadConstraint (ZMod q))) (L : List ℕ) :
    List (QuadConstraint (ZMod q)) :=
  L.foldl (fun n k => n.set k ⟨List.range' (260 * k) 260, convBI (normBound P k * normBound P k)⟩) norm

theorem normAll_inv (P : Params q) (L : List ℕ) : ∀ {norm : List (QuadConstraint (ZMod q))},
    NormInv norm → NormInv (normAll P norm L) := by
  induction L with
  | nil => intro n h; exact h
  | cons k L ih => intro n h; exact ih (h.set k _)

theorem normAll_other (P : Params q) (L : List ℕ) : ∀ {norm : List (QuadConstraint (ZMod q))} {l : ℕ},
    l ∉ L → (normAll P norm L)[l]? = norm[l]? := by
  induction L with
  | nil => intro n l _; rfl
  | cons k L ih =>
    intro n l h
    rw [List.mem_cons, not_or] at h
    show (normAll P _ L)[l]? = _
    rw [ih h.2, List.getElem?_set_ne (Ne.symm h.1)]

theorem normAll_new (P : Params q) (L : List ℕ) : ∀ {norm : List (QuadConstraint (ZMod q))} {k : ℕ},
    NormInv norm → k ∈ L → k < 10 → (normAll P norm L)[k]? =
      some ⟨List.range' (260 * k) 260, convBI (normBound P k * normBound P k)⟩ := by
  induction L with
  | nil => intro n k _ h; cases h
  | cons l L ih =>
    intro n k hn h hk
    show (normAll P (n.set l _) L)[k]? = _
    by_cases hkL : k ∈ L
    · exact ih (hn.set l _) hkL hk
    · rw [normAll_other P L hkL]
      rcases List.mem_cons.1 h with rfl | h
      · rw [List.getElem?_set_self (by rw [hn.1]; exact hk)]
      · exact absurd h hkL

variable {G : Type} [AddCommGroup G] [Module (ZMod q) G]

/-- What one of the functions does to the data: it records the linear constraints `slots`, the norm
constraints of `L`, and writes `W` (of which `pairWrites L` is the part with norm constraints). -/
structure Step {St : Type} (P : Params q) (tests : ℕ → Tests) (vd : VerifierData (ZMod q) G St)
    (pd : ProverData (ZMod q)) (vd' : VerifierData (ZMod q) G St) (pd' : ProverData (ZMod q))
    (slots : List ℕ) (L : List (ℕ × Padded q)) (W : List (ℕ × List (ZMod q))) : Prop where
  ix : vd'.ix = vd.ix
  Gs : vd'.Gs = vd.Gs
  Hs : vd'.Hs = vd.Hs
  linLength : vd'.linConstr.length = vd.linConstr.length
  linRest : ∀ i, (∀ s ∈ slots, i ≠ s ∧ i ≠ s + 1) → vd'.linConstr[i]? = vd.linConstr[i]?
  norm : vd'.normConstr = normAll P vd.normConstr (L.map Prod.fst)
  compLength : pd'.compressed.length = 1300
  comp : CopiedAll pd.compressed L pd'.compressed
  pads : ∀ p ∈ L, PadOk P tests p
  nodup : (L.map Prod.fst).Nodup
  linWitness : pd'.linWitness = putAll pd.linWitness W
  quadWitness : pd'.quadWitnessG = putAll pd.quadWitnessG (pairWrites L)
  writes : ∀ p ∈ pairWrites L, p ∈ W

theorem Step.setup {St : Type} {P : Params q} {tests : ℕ → Tests} {vd : VerifierData (ZMod q) G St}
    {pd : ProverData (ZMod q)} {vd' : VerifierData (ZMod q) G St} {pd' : ProverData (ZMod q)}
    {slots L W} (h : Step P tests vd pd vd' pd' slots L W) (S : Setup P vd pd) : Setup P vd' pd' := by
  have hn := normAll_inv P (L.map Prod.fst) (⟨S.normLength, S.norm⟩ : NormInv vd.normConstr)
  constructor
  · rw [h.ix]; exact S.layout
  · rw [h.ix]; exact S.small
  · rw [h.ix, h.Gs]; exact S.gs
  · rw [h.Hs]; exact S.hs
  · rw [h.linLength]; exact S.lin
  · rw [h.norm]; exact hn.1
  · rw [h.norm]; exact hn.2
  · exact h.compLength
  · rw [h.linWitness]; exact (putAll_spec W _ S.linWitness).1
  · rw [h.quadWitness]; exact (putAll_spec _ _ S.quadWitness).1

theorem Step.normRecorded {St : Type} {P : Params q} {tests : ℕ → Tests} {vd : VerifierData (ZMod q) G St}
    {pd : ProverData (ZMod q)} {vd' : VerifierData (ZMod q) G St} {pd' : ProverData (ZMod q)}
    {slots L W} (h : Step P tests vd pd vd' pd' slots L W) (S : Setup P vd pd) (hP : ParamsOk P)
    {p : ℕ × Padded q} (hp : p ∈ L) : NormRecorded P vd'.normConstr p.1 := by
  have hk := (h.pads p hp).1
  unfold NormRecorded
  rw [h.norm, normAll_new P _ (⟨S.normLength, S.norm⟩ : NormInv vd.normConstr)
    (List.mem_map_of_mem hp) hk, convBI_sq _ (hP.small _ hk).2]

/-- Each block that was written has the right norm, or its padding failed. -/
theorem Step.exact {St : Type} {P : Params q} {tests : ℕ → Tests} {vd : VerifierData (ZMod q) G St}
    {pd : ProverData (ZMod q)} {vd' : VerifierData (ZMod q) G St} {pd' : ProverData (ZMod q)}
    {slots L W} (h : Step P tests vd pd vd' pd' slots L W) {x : ℕ → ZMod q}
    (hx : ∀ p ∈ W, Reads x p.1 p.2) {p : ℕ × Padded q} (hp : p ∈ L) :
    (NormExact P x p.1 ∨ PadFailed P tests x p.1) ∧
      normSq ((List.range' (260 * p.1) 260).map x) ≤ normBound P p.1 ^ 2 + 4 := by
  obtain ⟨h1, h2, h3, h4⟩ := h.pads p hp
  have r1 : Reads x (260 * p.1) (coeffs p.2.comp) :=
    hx (260 * p.1, coeffs p.2.comp) (h.writes _ (by
    unfold pairWrites; exact List.mem_flatMap.2 ⟨p, hp, by simp⟩))
  have r2 : Reads x (260 * p.1 + 256) (coeffs p.2.pad) :=
    hx (260 * p.1 + 256, coeffs p.2.pad) (h.writes _ (by
      unfold pairWrites; exact List.mem_flatMap.2 ⟨p, hp, by simp⟩))
  have hl1 : (coeffs p.2.comp).length = 256 := by rw [coeffs_length, h2]
  have hl2 : (coeffs p.2.pad).length = 4 := by rw [coeffs_length, h3]
  have hca : coeffs (p.2.comp ++ p.2.pad) = coeffs p.2.comp ++ coeffs p.2.pad := by
    simp only [coeffs, List.flatMap_append]
  have hr := reads_map (reads_append r1 (by rw [hl1]; exact r2))
  rw [List.length_append, hl1, hl2] at hr
  have hr1 := reads_map r1
  rw [hl1] at hr1
  unfold NormExact PadFailed
  rw [hr, hr1, ← hca]
  exact h4

/-- An exact norm satisfies the recorded constraint. -/
theorem normExact_sat {P : Params q} {x : ℕ → ZMod q} {k : ℕ} (h : NormExact P x k) :
    QuadSat (⟨List.range' (260 * k) 260, ((normBound P k ^ 2 : ℤ) : ZMod q)⟩ : QuadConstraint (ZMod q)) x x := by
  unfold QuadSat NormExact at *
  simp only
  rw [← h, normSq_cast, List.map_map]
  rfl

theorem commitPair_opens {base : G} {Gs Hs : List G} {p : Padded q} {k : ℕ} {r r' : ZMod q} {c : G × G}
    (hk : k < 10) (hc : p.comp.length = 128) (hp : p.pad.length = 2)
    (hG : 2600 ≤ Gs.length) (hH : 2600 ≤ Hs.length)
    (h : commitPair base Gs Hs p (260 * k) (260 * k + 256) r r' = .ok c) {x : ℕ → ZMod q}
    (r1 : Reads x (260 * k) (coeffs p.comp)) (r2 : Reads x (260 * k + 256) (coeffs p.pad)) :
    c.1 = comGH base Gs Hs x x (260 * k) 256 r ∧ c.2 = comGH base Gs Hs x x (260 * k + 256) 4 r' := by
  unfold commitPair at h
  obtain ⟨c1, h1, h⟩ := Res.bind_eq_ok.1 h
  obtain ⟨c2, h2, h⟩ := Res.bind_eq_ok.1 h
  obtain rfl := Res.ok.inj h
  have e1 := commit2E_opens (by omega) (by omega) h1 x r1
  have e2 := commit2E_opens (by omega) (by omega) h2 x r2
  rw [hc] at e1
  rw [hp] at e2
  exact ⟨e1, e2⟩

/-- The digits put together. -/
theorem digits_eq {v hi lo : EVec q 2} {radix : ℤ} (h1 : 1 ≤ radix)
    (h : breakTwoDigits v radix = .ok (hi, lo)) : hi.length = v.length ∧ lo.length = v.length ∧
    ∀ j < v.length, lo.getD j 0 + (radix : ZMod q) • hi.getD j 0 = v.getD j 0 := by
  have hq : NeZero q := ⟨(Fact.out : q.Prime).ne_zero⟩
  obtain ⟨hi', lo', h2, h3⟩ := Props.C36_recompose v radix (by omega)
  rw [h] at h2
  obtain ⟨rfl, rfl⟩ := Prod.mk.inj (Res.ok.inj h2)
  have hlen : hi.length = v.length ∧ lo.length = v.length := by
    unfold breakTwoDigits at h
    rw [if_neg (by rintro ⟨h, _⟩; omega)] at h
    obtain ⟨rfl, rfl⟩ := Prod.mk.inj (Res.ok.inj h)
    simp
  refine ⟨hlen.1, hlen.2, fun j hj => ?_⟩
  conv_rhs => rw [← h3]
  have a1 : j < hi.length := by omega
  have a2 : j < lo.length := by omega
  rw [getD_of_lt lo a2, getD_of_lt hi a1, getD_of_lt _ (by rw [List.length_zipWith]; omega),
    List.getElem_zipWith]

end
end Verif
