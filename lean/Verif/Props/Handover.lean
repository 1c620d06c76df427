/-
C85: a shared secret survives any number of handovers from committee to committee.
-/
import Verif.Lemmas.Handover
import Verif.Props.RegevProofs
import Verif.Spec.RegevDemo

namespace Verif.Props
open Verif Verif.Spec Verif.Regev Polynomial

section
variable {F : Type} [Field F] [DecidableEq F]

/-- A history of handovers that keeps to the rules: in each, at least as many members of the old committee
deal as its threshold says, the points of the new committee are good (see C23), and each dealer draws as
many coefficients as the new threshold asks for. -/
def Allowed : ℕ → List ℤ → List (Handover F) → Prop
  | _, _, [] => True
  | t, pts, H :: Hs => H.dealers.Sublist pts ∧ t ≤ H.dealers.length ∧ GoodPoints F H.pts ∧
      (∀ x ∈ H.dealers, (H.coins x).length + 1 = H.thr) ∧ Allowed H.thr H.pts Hs

omit [DecidableEq F] in
theorem valid_poly {t : ℕ} {pts : List ℤ} {v : List F} (h : ValidSharing t pts v) :
    ∃ p : F[X], p.degree < t ∧ v = deal pts p := h

/-- **C85.** One handover with dealings that may come from anybody: if the old committee holds a valid sharing
of `s`, at least as many of its members as its threshold says have dealt, and every dealing is a valid sharing
(with the new threshold and points) of the share of its dealer, then every member of the new committee gets a
share, and the new shares are a valid sharing of `s`. -/
theorem C85_verified (t : ℕ) (pts : List ℤ) (s : F) (shares : List F) (hv : ValidSharing t pts (s :: shares))
    (hg : GoodPoints F pts) (dealers : List ℤ) (hs : dealers.Sublist pts) (ht : t ≤ dealers.length)
    (t' : ℕ) (pts' : List ℤ) (D : List (List F)) (hl : D.length = dealers.length)
    (hD : ∀ k < dealers.length, ∃ d, D[k]? = some d ∧ ValidSharing t' pts' d ∧
      d.head? = (sharesFor pts shares dealers)[k]?) :
    ∃ shares', mapRes (newShare D dealers) (List.range pts'.length) = .ok shares' ∧
      ValidSharing t' pts' (s :: shares') := by
  obtain ⟨p, hp, hsh⟩ := valid_poly hv
  obtain ⟨rfl, rfl⟩ := List.cons.inj hsh
  have hg' := hg.sub hs
  rw [sharesFor_map _ hs hg.nodup] at hD
  have hQ : ∀ x ∈ dealers, ∃ Q : F[X], Q.degree < t' ∧ D[dealers.idxOf x]? = some (deal pts' Q) ∧
      Q.eval 0 = p.eval (x : F) := by
    intro x hx
    have hi := List.idxOf_lt_length_iff.2 hx
    obtain ⟨d, h1, h2, h3⟩ := hD _ hi
    obtain ⟨Q, hQ, rfl⟩ := valid_poly h2
    refine ⟨Q, hQ, h1, ?_⟩
    rw [List.getElem?_map, List.getElem?_eq_getElem hi, List.getElem_idxOf hi] at h3
    simpa [deal] using h3
  choose! Q hQ1 hQ2 hQ3 using hQ
  have hDm : D = dealers.map fun x => deal pts' (Q x) := by
    apply List.ext_getElem
    · simp [hl]
    · intro i h1 h2
      have hi : i < dealers.length := by omega
      have := hQ2 _ (List.getElem_mem hi)
      rw [hg'.nodup.idxOf_getElem i hi, List.getElem?_eq_getElem h1] at this
      rw [Option.some.inj this]
      simp
  rw [hDm, newShares_deal hg']
  refine ⟨_, rfl, combined dealers Q, combined_degree _ _ _ hQ1, ?_⟩
  congr 1
  rw [combined_eval, ← lag_sum hg' p (lt_of_lt_of_le hp (by exact_mod_cast ht))]
  congr 1
  apply List.map_congr_left
  intro x hx
  rw [hQ3 x hx]

/-- **C85.** One handover with the functions of the library: it succeeds, and the new committee holds a valid
sharing of the same secret. -/
theorem C85_handover (t : ℕ) (pts : List ℤ) (s : F) (shares : List F) (hv : ValidSharing t pts (s :: shares))
    (hg : GoodPoints F pts) (H : Handover F) (hs : H.dealers.Sublist pts) (ht : t ≤ H.dealers.length)
    (hc : ∀ x ∈ H.dealers, (H.coins x).length + 1 = H.thr) :
    ∃ shares', handover pts shares H = .ok shares' ∧ ValidSharing H.thr H.pts (s :: shares') := by
  obtain ⟨p, hp, hsh⟩ := valid_poly hv
  obtain ⟨rfl, rfl⟩ := List.cons.inj hsh
  refine C85_verified t pts _ _ hv hg H.dealers hs ht H.thr H.pts _ ?_ ?_
  · rw [dealings_map _ H hs hg.nodup, List.length_map]
  · intro k hk
    refine ⟨_, by rw [dealings_map _ H hs hg.nodup, List.getElem?_map, List.getElem?_eq_getElem hk]; rfl, ?_, ?_⟩
    · rw [← hc _ (List.getElem_mem hk)]
      exact ⟨_, degree_sharing _ _, rfl⟩
    · rw [sharesFor_map _ hs hg.nodup, List.getElem?_map, List.getElem?_eq_getElem hk]
      simp only [deal, eval_zero_sharing]
      rfl

theorem handovers_valid (Hs : List (Handover F)) : ∀ (t : ℕ) (pts : List ℤ) (s : F) (shares : List F),
    ValidSharing t pts (s :: shares) → GoodPoints F pts → Allowed t pts Hs →
    ∃ shares', handovers pts shares Hs = .ok shares' ∧ ValidSharing (lastThr t Hs) (lastPts pts Hs) (s :: shares') ∧
      GoodPoints F (lastPts pts Hs) := by
  induction Hs with
  | nil => exact fun t pts s shares hv hg _ => ⟨shares, rfl, hv, hg⟩
  | cons H Hs ih =>
    rintro t pts s shares hv hg ⟨h1, h2, h3, h4, h5⟩
    obtain ⟨sh1, e1, v1⟩ := C85_handover t pts s shares hv hg H h1 h2 h4
    obtain ⟨sh2, e2, v2⟩ := ih H.thr H.pts s sh1 v1 h3 h5
    refine ⟨sh2, ?_, v2⟩
    rw [handovers, e1, Res.ok_bind, e2]

/-- **C85.** From the first sharing on, through any number of handovers: every step succeeds, the last
committee holds a valid sharing of the original secret, and any set of its members as large as its threshold
reconstructs that secret. -/
theorem C85_handovers (t : ℕ) (pts : List ℤ) (hg : GoodPoints F pts) (rs : List F) (hrs : rs.length + 1 = t) (s : F)
    (Hs : List (Handover F)) (hH : Allowed t pts Hs) :
    ∃ shares, handovers pts (newSharing pts rs s).tail Hs = .ok shares ∧
      ValidSharing (lastThr t Hs) (lastPts pts Hs) (s :: shares) ∧
      ∀ sub, sub.Sublist (lastPts pts Hs) → lastThr t Hs ≤ sub.length →
        getSecret (sharesFor (lastPts pts Hs) shares sub) sub = .ok s := by
  obtain ⟨h1, h2⟩ := C23_newSharing_valid pts rs s
  have h3 : newSharing pts rs s = s :: (newSharing pts rs s).tail := (List.cons_head?_tail h2).symm
  rw [hrs, h3] at h1
  obtain ⟨sh, e, v, g⟩ := handovers_valid Hs t pts s _ h1 hg hH
  refine ⟨sh, e, v, fun sub hs ht => ?_⟩
  obtain ⟨s', h4, h5⟩ := C23_reconstruct _ _ _ v sub hs ht g
  obtain rfl : s = s' := by simpa using h4
  exact h5

/-- Two handovers: from the committee 1..5 with threshold 2 to the same points with threshold 3, and on to three
other points with threshold 2; the dealers of the second are more than necessary. -/
def demoHs : List (Handover (ZMod 17)) :=
  [{ dealers := [2, 4], pts := [1, 2, 3, 4, 5], thr := 3, coins := fun x => [(x : ZMod 17) + 1, 5] },
   { dealers := [1, 2, 3, 5], pts := [2, 3, 7], thr := 2, coins := fun x => [(x : ZMod 17) * 3] }]

theorem demo_allowed : Allowed 2 [1, 2, 3, 4, 5] demoHs := by
  refine ⟨by decide, by decide, good_example, by simp, by decide, by decide, ?_, by simp, trivial⟩
  refine ⟨by decide, ?_, ?_, ?_⟩
  · intro x hx y hy; fin_cases hx <;> fin_cases hy <;> decide
  · intro x hx; fin_cases hx <;> decide
  · intro x hx y hy; fin_cases hx <;> fin_cases hy <;> decide

example : ∃ shares, handovers [1, 2, 3, 4, 5] (newSharing [1, 2, 3, 4, 5] [(7 : ZMod 17)] 3).tail demoHs = .ok shares ∧
    getSecret (sharesFor [2, 3, 7] shares [2, 7]) [2, 7] = .ok 3 := by
  obtain ⟨sh, h1, -, h2⟩ := C85_handovers 2 [1, 2, 3, 4, 5] good_example [7] rfl (3 : ZMod 17) demoHs demo_allowed
  exact ⟨sh, h1, h2 [2, 7] (by decide) (by decide)⟩

end

/-! ### With the constraints of the resharing proof -/

section
variable {q : ℕ} [Fact q.Prime] {G : Type} [AddCommGroup G] [Module (ZMod q) G]

/-- **C85.** What the proof of resharing says about the next handover: a member `j` of the new committee that
received column `j` of the dealings `D`, and whose values satisfy the constraints of `proveReShare` for the
points and threshold of the committee after that, deals a valid sharing of the share that it ought to have. -/
theorem C85_constraints {St : Type} {P : Params q} {vd vd' : VerifierData (ZMod q) G St}
    {pd pd' : ProverData (ZMod q)} {lagrange pt1 pt2 : List (ZMod q)}
    (ntlKernel : List (List (ZMod q)) → List (List (ZMod q)))
    (hker : ∀ G nr nc, G.length = nr → (∀ r ∈ G, r.length = nc) →
      GeneratesLeftKernel (ntlKernel G) G nr nc)
    (pts : List ℤ) (t : ℕ) (ht : 1 ≤ t) {sp : SharingParams (ZMod q)}
    (hsp : SharingParams.make ntlKernel pts t = .ok sp) (hH : P.H = sp.H) (hpts : pts.length = P.gk.enn)
    (dealers : List ℤ) (hlag : lagrangeCoeffs dealers = .ok lagrange)
    (h : proveReShare P vd pd lagrange pt1 pt2 = .ok (vd', pd'))
    (D : List (List (ZMod q))) (hD : D.length = dealers.length) (j : ℕ) (x : ℕ → ZMod q)
    (hx : ∀ k (hk : k < D.length), D[k][j + 1]? = some (x (vd.ix.pt1 + k)))
    (hsat : ∀ i < P.H.length, ∃ c, vd'.linConstr[14 + i]? = some c ∧ LinSat c x) :
    ∃ share, newShare D dealers j = .ok share ∧
      ValidSharing t pts (share :: (List.range' vd.ix.pt2 P.gk.enn).map x) := by
  have hv := (C43_reshare ntlKernel hker pts t ht hsp hH hpts h x).1 hsat
  refine ⟨_, ?_, hv⟩
  have hlen : lagrange.length = dealers.length := by
    have key : ∀ R l (v : List (ZMod q)), lagrangeOuter R l = .ok v → v.length = l.length := by
      intro R l
      induction l with
      | nil => intro v hv; obtain rfl := Res.ok.inj hv; rfl
      | cons a l ih =>
        intro v hv
        unfold lagrangeOuter at hv
        obtain ⟨nd, -, hv⟩ := Res.bind_eq_ok.1 hv
        split at hv
        · cases hv
        · obtain ⟨w, h1, hv⟩ := Res.bind_eq_ok.1 hv
          obtain rfl := Res.ok.inj hv
          simp [ih w h1]
    exact key _ _ _ hlag
  unfold newShare
  rw [mapRes_ok (g := fun d => d.getD (j + 1) 0) (by
    intro d hd
    obtain ⟨k, hk, rfl⟩ := List.getElem_of_mem hd
    unfold rd
    rw [hx k hk, List.getD_eq_getElem?_getD, hx k hk]
    rfl), Res.ok_bind]
  unfold getSecret
  rw [hlag, Res.ok_bind]
  show Res.ok _ = Res.ok _
  congr 1
  unfold ntlInnerProduct
  rw [← Fin.sum_univ_eq_sum_range (fun i => lagrange.getD i 0 * x (vd.ix.pt1 + i)), ← List.sum_ofFn]
  congr 1
  apply List.ext_getElem
  · simp [hD, hlen]
  · intro i h1 h2
    have hi : i < lagrange.length := by simpa using h2
    have hiD : i < D.length := by omega
    simp [List.getD_eq_getElem?_getD, hx i hiD, List.getElem?_eq_getElem hi]

/-- Two dealings among four members; member number 0 received 8 and 8, and deals the sharing of `2·8 - 8`
with coefficient 9. -/
def handX : ℕ → ZMod 10007 := fun i =>
  if i < demoIx.pt1 + 2 then 8 else 8 + 9 * ((i - demoIx.pt2 + 1 : ℕ) : ZMod 10007)

example (ntlKernel : List (List (ZMod 10007)) → List (List (ZMod 10007)))
    (hker : ∀ G nr nc, G.length = nr → (∀ r ∈ G, r.length = nc) →
      GeneratesLeftKernel (ntlKernel G) G nr nc) (sp : SharingParams (ZMod 10007))
    (hsp : SharingParams.make ntlKernel [1, 2, 3, 4] 2 = .ok sp) :
    ∃ (P : Params 10007) (vd vd' : VerifierData (ZMod 10007) (ZMod 10007) demoE.St) (pd' : ProverData (ZMod 10007)),
      P.H = sp.H ∧ lagrangeCoeffs (F := ZMod 10007) [1, 2] = .ok [2, -1] ∧
      proveReShare P vd demoD [2, -1] demoPt1 demoPt2 = .ok (vd', pd') ∧
      (∀ k (hk : k < [newSharing [1, 2, 3, 4] [3] (5 : ZMod 10007), newSharing [1, 2, 3, 4] [1] 7].length),
        [newSharing [1, 2, 3, 4] [3] (5 : ZMod 10007), newSharing [1, 2, 3, 4] [1] 7][k][0 + 1]? =
          some (handX (vd.ix.pt1 + k))) ∧
      ∀ i < P.H.length, ∃ c, vd'.linConstr[14 + i]? = some c ∧ LinSat c handX := by
  have hrows : ∀ row ∈ sp.H, row.length = 1 + 4 := by
    have e : SharingParams.make ntlKernel [1, 2, 3, 4] 2 = .ok ⟨2, [1, 2, 3, 4], ntlKernel
      ((1 :: List.replicate (2 - 1) 0) :: [1, 2, 3, 4].map fun (ep : Int) => genRow (ep : ZMod 10007) 2 1)⟩ := rfl
    rw [hsp] at e
    obtain rfl := Res.ok.inj e
    exact (hker _ 5 2 rfl (by simp [genRow])).1
  have hlag : lagrangeCoeffs (F := ZMod 10007) [1, 2] = .ok [2, -1] := by decide +kernel
  obtain ⟨lin, h1, -⟩ := (C43_reshare_meaning (P := { demoP with H := sp.H })
    (vd := { demoV with linConstr := List.replicate (14 + sp.H.length) ⟨[], 0⟩ }) (pd := demoD)
    (lagrange := [2, -1]) (pt1 := demoPt1) (pt2 := demoPt2)).1
      ⟨rfl, rfl, rfl, hrows, by simp⟩
  refine ⟨_, _, _, _, rfl, hlag, h1, ?_, ?_⟩
  · intro k hk
    have hk : k < 2 := hk
    interval_cases k
    · show (newSharing [1, 2, 3, 4] [3] (5 : ZMod 10007))[0 + 1]? = some (handX (demoIx.pt1 + 0))
      decide +kernel
    · show (newSharing [1, 2, 3, 4] [1] (7 : ZMod 10007))[0 + 1]? = some (handX (demoIx.pt1 + 1))
      decide +kernel
  · refine (C43_reshare ntlKernel hker [1, 2, 3, 4] 2 (by omega) hsp rfl rfl h1 handX).2 ?_
    refine ⟨C 8 + C 9 * X, ?_, ?_⟩
    · rw [degree_lt_iff_coeff_zero]
      intro m hm
      rw [coeff_add, coeff_C, if_neg (by omega), coeff_C_mul, coeff_X, if_neg (by omega)]
      simp
    · simp only [eval_add, eval_C, eval_mul, eval_X]
      decide +kernel

end
end Verif.Props
