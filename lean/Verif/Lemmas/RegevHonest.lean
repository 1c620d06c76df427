import Verif.Lemmas.RegevSmallRun

namespace Verif
open Spec Regev
open scoped BigOperators

section
variable {q : ℕ} [Fact q.Prime] {G : Type} [AddCommGroup G] [Module (ZMod q) G]

theorem batch_zero {m : ℕ} {ξ : Elt (ZMod q) 2} {d : ℕ → Elt (ZMod q) 2} (h : ∀ j < m, d j = 0) :
    batch m ξ d = 0 := by
  unfold batch
  refine Finset.sum_eq_zero fun j hj => ?_
  rw [h j (Finset.mem_range.1 hj), mul_zero]

theorem digits_reads {x : ℕ → ZMod q} {lo hi : ℕ} {l h : EVec q 2} {radix : ℤ}
    (h1 : Reads x lo (coeffs l)) (h2 : Reads x hi (coeffs h)) {j : ℕ} (hl : j < l.length)
    (hh : j < h.length) : digits x lo hi radix j = l.getD j 0 + (radix : ZMod q) • h.getD j 0 := by
  unfold digits
  rw [h1.elt j hl, h2.elt j hh]

theorem decNoise_eq {delta kay tee : ℕ} {ctMat : EMat q 2} {ctVec : EVec q 2} {ptxt : List (ZMod q)}
    {skey noise : EVec q 2} {skIdx ptIdx : ℕ} {x : ℕ → ZMod q}
    (hD : Decrypts delta kay tee ctMat ctVec ptxt skey noise) (hs : skey.length = kay)
    (hp : ptxt.length = tee) (r1 : Reads x skIdx (coeffs skey)) (r2 : Reads x ptIdx ptxt) {i : ℕ}
    (hi : i < tee) : decNoise delta kay ctMat ctVec skIdx ptIdx x i = noise.getD i 0 := by
  unfold decNoise
  rw [hD i hi, r2.val i (by omega),
    sum_range_congr (n := kay) (f := fun k => eltAt x skIdx k * entry ctMat k i)
      (g := fun k => skey.getD k 0 * entry ctMat k i) fun k hk => by rw [r1.elt k (by omega)]]
  ring

theorem encNoise1_eq {kay : ℕ} {A : EMat q 2} {ct1 rnd noise1 : EVec q 2} {rIdx : ℕ} {x : ℕ → ZMod q}
    (hD : Encrypts1 kay A ct1 rnd noise1) (hs : rnd.length = kay)
    (r1 : Reads x rIdx (coeffs rnd)) {i : ℕ} (hi : i < kay) :
    encNoise1 kay A ct1 rIdx x i = noise1.getD i 0 := by
  unfold encNoise1
  rw [hD i hi,
    sum_range_congr (n := kay) (f := fun k => entry A i k * eltAt x rIdx k)
      (g := fun k => entry A i k * rnd.getD k 0) fun k hk => by rw [r1.elt k (by omega)]]
  ring

theorem encNoise2_eq {delta kay enn : ℕ} {B : EMat q 2} {ct2 : EVec q 2} {ptxt : List (ZMod q)}
    {rnd noise2 : EVec q 2} {rIdx ptIdx : ℕ} {x : ℕ → ZMod q}
    (hD : Encrypts2 delta kay enn B ct2 ptxt rnd noise2) (hs : rnd.length = kay) (hp : ptxt.length = enn)
    (r1 : Reads x rIdx (coeffs rnd)) (r2 : Reads x ptIdx ptxt) {i : ℕ} (hi : i < enn) :
    encNoise2 delta kay B ct2 rIdx ptIdx x i = noise2.getD i 0 := by
  unfold encNoise2
  rw [hD i hi, r2.val i (by omega),
    sum_range_congr (n := kay) (f := fun k => entry B i k * eltAt x rIdx k)
      (g := fun k => entry B i k * rnd.getD k 0) fun k hk => by rw [r1.elt k (by omega)]]
  ring

theorem keyNoise_eq {kay : ℕ} {A : EMat q 2} {pk skey noise : EVec q 2} {skIdx : ℕ} {x : ℕ → ZMod q}
    (hD : KeyFor kay A pk skey noise) (hs : skey.length = kay)
    (r1 : Reads x skIdx (coeffs skey)) {i : ℕ} (hi : i < kay) :
    keyNoise kay A pk skIdx x i = noise.getD i 0 := by
  unfold keyNoise
  rw [hD i hi,
    sum_range_congr (n := kay) (f := fun k => eltAt x skIdx k * entry A k i)
      (g := fun k => skey.getD k 0 * entry A k i) fun k hk => by rw [r1.elt k (by omega)]]
  ring

/-! ### Blocks -/

theorem pairWrites_mem {L : List (ℕ × Padded q)} {p : ℕ × Padded q} (hp : p ∈ L) :
    (260 * p.1, coeffs p.2.comp) ∈ pairWrites L ∧ (260 * p.1 + 256, coeffs p.2.pad) ∈ pairWrites L := by
  unfold pairWrites
  exact ⟨List.mem_flatMap.2 ⟨p, hp, by simp⟩, List.mem_flatMap.2 ⟨p, hp, by simp⟩⟩

theorem pairWrites_apart {L : List (ℕ × Padded q)} {P : Params q} {tests : ℕ → Tests}
    (hL : ∀ p ∈ L, PadOk P tests p) (hn : (L.map Prod.fst).Nodup) : (pairWrites L).Pairwise Apart := by
  induction L with
  | nil => exact List.Pairwise.nil
  | cons p L ih =>
    rw [List.map_cons, List.nodup_cons] at hn
    have h1 := hL p List.mem_cons_self
    have hlc : (coeffs p.2.comp).length = 256 := by rw [coeffs_length, h1.2.1]
    have hlp : (coeffs p.2.pad).length = 4 := by rw [coeffs_length, h1.2.2.1]
    unfold pairWrites
    rw [List.flatMap_cons, List.pairwise_append]
    refine ⟨?_, ih (fun p hp => hL p (List.mem_cons_of_mem _ hp)) hn.2, ?_⟩
    · rw [List.pairwise_cons]
      refine ⟨?_, List.pairwise_singleton _ _⟩
      intro a ha
      rw [List.mem_singleton.1 ha]
      left
      simp only [hlc]
      exact le_rfl
    · intro a ha b hb
      obtain ⟨p', hp', hb⟩ := List.mem_flatMap.1 hb
      have h2 := hL p' (List.mem_cons_of_mem _ hp')
      have hlc' : (coeffs p'.2.comp).length = 256 := by rw [coeffs_length, h2.2.1]
      have hlp' : (coeffs p'.2.pad).length = 4 := by rw [coeffs_length, h2.2.2.1]
      have hne : p.1 ≠ p'.1 := fun he => hn.1 (he ▸ List.mem_map_of_mem hp')
      simp only [List.mem_cons, List.not_mem_nil, or_false] at ha hb
      unfold Apart
      rcases ha with rfl | rfl <;> rcases hb with rfl | rfl <;>
        simp only [hlc, hlp, hlc', hlp'] <;> omega

theorem pairWrites_below {L : List (ℕ × Padded q)} {P : Params q} {tests : ℕ → Tests}
    (hL : ∀ p ∈ L, PadOk P tests p) : ∀ p ∈ pairWrites L, p.1 + p.2.length ≤ 2600 := by
  intro a ha
  obtain ⟨p, hp, ha⟩ := List.mem_flatMap.1 ha
  have h2 := hL p hp
  have h1 := h2.1
  simp only [List.mem_cons, List.not_mem_nil, or_false] at ha
  rcases ha with rfl | rfl
  · simp only [coeffs_length, h2.2.1]; omega
  · simp only [coeffs_length, h2.2.2.1]; omega

/-- Everything recorded about the blocks of a step. -/
theorem Step.blocks {St : Type} {P : Params q} {tests : ℕ → Tests} {vd : VerifierData (ZMod q) G St}
    {pd : ProverData (ZMod q)} {vd' : VerifierData (ZMod q) G St} {pd' : ProverData (ZMod q)}
    {slots L W} (h : Step P tests vd pd vd' pd' slots L W) (S : Setup P vd pd) (hP : ParamsOk P)
    {x : ℕ → ZMod q} (hx : ∀ p ∈ W, Reads x p.1 p.2) {p : ℕ × Padded q} (hp : p ∈ L) :
    BlockRecorded P tests vd' pd' x p.1 := by
  have hx' : ∀ p ∈ pairWrites L, Reads x p.1 p.2 := fun p hp => hx p (h.writes p hp)
  refine ⟨h.normRecorded S hP hp, (h.exact hx hp).1, (h.exact hx hp).2, ?_, copiedAll_new L h.comp h.nodup h.pads hx' p hp⟩
  intro j hj
  obtain ⟨h1, h2, h3, h4⟩ := h.pads p hp
  obtain ⟨-, -, -, q4⟩ := putAll_spec (pairWrites L) pd.quadWitnessG S.quadWitness
  have q4 := q4 (pairWrites_apart h.pads h.nodup)
  rw [h.quadWitness]
  have hlc : (coeffs p.2.comp).length = 256 := by rw [coeffs_length, h2]
  have hlp : (coeffs p.2.pad).length = 4 := by rw [coeffs_length, h3]
  by_cases hj2 : j < 256
  · have e := List.getElem?_eq_getElem (l := coeffs p.2.comp) (i := j) (by omega)
    rw [q4 _ (pairWrites_mem hp).1 j _ e, hx' _ (pairWrites_mem hp).1 j _ e]
  · have e := List.getElem?_eq_getElem (l := coeffs p.2.pad) (i := j - 256) (by omega)
    have e1 := q4 _ (pairWrites_mem hp).2 (j - 256) _ e
    have e2 := hx' _ (pairWrites_mem hp).2 (j - 256) _ e
    have : 260 * p.1 + 256 + (j - 256) = 260 * p.1 + j := by omega
    simp only [this] at e1 e2
    rw [e1, e2]

theorem Step.onlyChanged {St : Type} {P : Params q} {tests : ℕ → Tests} {vd : VerifierData (ZMod q) G St}
    {pd : ProverData (ZMod q)} {vd' : VerifierData (ZMod q) G St} {pd' : ProverData (ZMod q)}
    {slots L W} (h : Step P tests vd pd vd' pd' slots L W) (hz : vd'.z = vd.z) :
    OnlyChanged vd vd' slots (L.map Prod.fst) :=
  ⟨h.ix, h.Gs, h.Hs, hz, h.linRest, fun k hk => by rw [h.norm, normAll_other P _ hk]⟩

/-- The values written by a step are those of any assignment that agrees with the witness. -/
theorem Step.reads {St : Type} {P : Params q} {tests : ℕ → Tests} {vd : VerifierData (ZMod q) G St}
    {pd : ProverData (ZMod q)} {vd' : VerifierData (ZMod q) G St} {pd' : ProverData (ZMod q)}
    {slots L W} (h : Step P tests vd pd vd' pd' slots L W) (S : Setup P vd pd)
    (hW : W.Pairwise Apart) {x : ℕ → ZMod q} (hx : Agrees pd'.linWitness x) :
    ∀ p ∈ W, Reads x p.1 p.2 := by
  rw [h.linWitness] at hx
  exact agrees_reads S.linWitness hW hx

end
end Verif
