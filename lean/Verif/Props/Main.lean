/-
C34, C66: the driver program.  Every decryption satisfies the relation that is proved about it; the inputs of
the proofs that the program makes with the library's own key generation, sharing, encryption and
decryption are honest; so a run of the program ends with two accepted proofs.
-/
import Verif.Lemmas.Main
import Verif.Props.Round
import Verif.Props.RegevParams
import Verif.Props.ScalarField

namespace Verif.Props
open Spec Regev
open scoped BigOperators

section
variable {q : ℕ} [Fact q.Prime]

/-- **C34.** Whatever ciphertext is given, also one that was not made by encryption: the plaintext and noise
that `decrypt` returns satisfy the equation that the proof of decryption is about. -/
theorem C34_relation (delta : ℕ) (hd : 0 < delta) (gk : GlobalKey q 2) (sk : EVec q 2) (i : ℕ)
    (ct : EVec q 2 × EVec q 2) (x : ZMod q) (e : Elt (ZMod q) 2)
    (h : gk.decrypt delta sk i ct = .ok (x, e)) :
    ct.2.getD i 0 = (∑ k ∈ Finset.range gk.kay, sk.getD k 0 * ct.1.getD k 0) + x • g q 2 delta + e :=
  (decrypt_relation hd h).2.2.2.2.2

theorem interval_get (m : ℕ) : interval 1 ((m : ℤ) + 1) = (List.range m).map fun i => (1 : ℤ) + (i : ℕ) := by
  unfold interval
  simp

theorem mem_interval {m : ℕ} {x : ℤ} (h : x ∈ interval 1 ((m : ℤ) + 1)) : 1 ≤ x ∧ x ≤ m := by
  rw [interval_get] at h
  simp only [List.mem_map, List.mem_range] at h
  obtain ⟨i, hi, rfl⟩ := h
  omega

/-- The points of the parties are as they should be if there are fewer of them than field elements. -/
theorem interval_good (m : ℕ) (hm : m < q) (h31 : m < 2 ^ 31) : GoodPoints (ZMod q) (interval 1 ((m : ℤ) + 1)) := by
  refine ⟨?_, ?_, ?_, ?_⟩
  · rw [interval_get]
    exact List.nodup_range.map fun a b h => by simpa using h
  · intro x hx y hy hxy h
    have hx := mem_interval hx
    have hy := mem_interval hy
    apply hxy
    rw [ZMod.intCast_eq_intCast_iff_dvd_sub] at h
    have := Int.eq_zero_of_abs_lt_dvd h (by rw [abs_lt]; omega)
    omega
  · intro x hx h
    have hx := mem_interval hx
    rw [ZMod.intCast_zmod_eq_zero_iff_dvd] at h
    have := Int.le_of_dvd (by omega) h
    omega
  · intro x hx y hy
    have hx := mem_interval hx
    have hy := mem_interval hy
    omega

theorem ntlInner_sum (a b : List (ZMod q)) (m : ℕ) (ha : a.length = m) (hb : b.length = m) :
    ntlInnerProduct a b = ∑ i ∈ Finset.range m, a.getD i 0 * b.getD i 0 := by
  unfold ntlInnerProduct
  induction a generalizing b m with
  | nil => simp at ha; subst ha; simp
  | cons x a ih =>
    cases b with
    | nil => simp at ha hb; omega
    | cons y b =>
      simp only [List.length_cons] at ha hb
      subst ha
      rw [Finset.sum_range_succ']
      simp only [List.zip_cons_cons, List.map_cons, List.sum_cons, List.getD_cons_succ, List.getD_cons_zero]
      rw [ih b a.length rfl (by omega), add_comm]

theorem new_tee {k n s1 s2 : ℤ} {crs : ℕ → ℕ → Elt (ZMod q) 2} {gk : GlobalKey q 2}
    (h : GlobalKey.new k n s1 s2 crs = .ok gk) : 0 < gk.tee ∧ gk.tee ≤ gk.enn ∧ 0 < gk.kay ∧ 0 < gk.enn := by
  unfold GlobalKey.new at h
  by_cases h1 : k ≤ 0 ∨ n ≤ 0 ∨ s1 ≤ 1 ∨ s2 ≤ 2
  · rw [if_pos h1] at h; cases h
  rw [if_neg h1] at h
  simp only at h
  by_cases h2 : (n.toNat - 1) / (2 * 2) * 2 = 0
  · rw [if_pos h2] at h; cases h
  rw [if_neg h2] at h
  obtain rfl := Res.ok.inj h
  dsimp only
  omega

/-- Reading the sharing of the program. -/
theorem share_get (m : ℕ) (rs : List (ZMod q)) (s x : ZMod q) (i : ℕ)
    (h : rd (newSharing (interval 1 ((m : ℤ) + 1)) rs s) (i + 1) = .ok x) :
    i < m ∧ x = (toPoly (sharingCoeffs rs s)).eval (((1 + (i : ℕ) : ℤ)) : ZMod q) := by
  have h := rd_get h
  rw [newSharing_eq, List.getElem?_cons_succ, interval_get, List.map_map, List.getElem?_map] at h
  have hi : i < m := by
    by_contra hc
    rw [List.getElem?_eq_none (by simpa using hc)] at h
    cases h
  rw [List.getElem?_range hi] at h
  exact ⟨hi, by simpa using h.symm⟩

theorem list_ext_getD {α : Type} (d : α) {a b : List α} {m : ℕ} (ha : a.length = m) (hb : b.length = m)
    (h : ∀ i < m, a.getD i d = b.getD i d) : a = b := by
  apply List.ext_getElem (by omega)
  intro i h1 h2
  have := h i (by omega)
  rwa [List.getD_eq_getElem _ _ h1, List.getD_eq_getElem _ _ h2] at this

/-- **C66.** What the program feeds to the proofs, over any field with more elements than there are parties:
if no decryption error is reported, the inputs are those of an honest party, for all coins. -/
theorem C66_inputs (delta : ℕ) (hd : 0 < delta) (k n s1 s2 : ℤ) (crs : ℕ → ℕ → Elt (ZMod q) 2)
    (gk0 : GlobalKey q 2) (hnew : GlobalKey.new k n s1 s2 crs = .ok gk0) (hq : n < q) (h31 : n < 2 ^ 31)
    (ntlKernel : List (List (ZMod q)) → List (List (ZMod q)))
    (hker : ∀ G nr nc, G.length = nr → (∀ r ∈ G, r.length = nc) → GeneratesLeftKernel (ntlKernel G) G nr nc)
    (sp : SharingParams (ZMod q))
    (hsp : SharingParams.make ntlKernel (interval 1 (gk0.enn + 1)) gk0.tee = .ok sp)
    (party : ℕ) (C : MainCoins q) (gk : GlobalKey q 2) (inp : RoundInput q)
    (h : mainInputs delta gk0 party C = .ok (gk, inp, false))
    (P : Params q) (hg : P.gk = gk) (hH : P.H = sp.H) (hdel : P.delta = delta) :
    Honest P inp ∧ inp.sk2 = inp.sk1 ∧ inp.pkNum = party ∧ party < gk.enn ∧ inp.lagrange.length = gk.tee ∧
      gk.kay = gk0.kay ∧ gk.enn = gk0.enn ∧ gk.tee = gk0.tee ∧ Shaped gk := by
  obtain ⟨hs, hn0, hk, hn, -, -, -⟩ := new_shaped k n s1 s2 crs gk0 hnew
  obtain ⟨ht0, hte, hk0, he0⟩ := new_tee hnew
  unfold mainInputs at h
  obtain ⟨⟨gk', ks⟩, h1, h⟩ := Res.bind_eq_ok.1 h
  simp only at h
  obtain ⟨ptxt1, h2, h⟩ := Res.bind_eq_ok.1 h
  obtain ⟨ctxt1, h3, h⟩ := Res.bind_eq_ok.1 h
  obtain ⟨⟨sk, noise⟩, h4, h⟩ := Res.bind_eq_ok.1 h
  obtain ⟨dec, h5, h⟩ := Res.bind_eq_ok.1 h
  obtain ⟨wrong, h6, h⟩ := Res.bind_eq_ok.1 h
  obtain ⟨ptxt3, h7, h⟩ := Res.bind_eq_ok.1 h
  obtain ⟨⟨ct2, r, e1, e2⟩, h8, h⟩ := Res.bind_eq_ok.1 h
  simp only at h
  obtain ⟨ctMat, h9, h⟩ := Res.bind_eq_ok.1 h
  obtain ⟨ctVec, h10, h⟩ := Res.bind_eq_ok.1 h
  obtain ⟨lagrange, h11, h⟩ := Res.bind_eq_ok.1 h
  obtain ⟨hgk, hrest⟩ := Prod.mk.inj (Res.ok.inj h)
  obtain ⟨rfl, hwrong⟩ := Prod.mk.inj hrest
  subst hgk
  simp only at h5
  obtain ⟨pks, a1, a2, a3, a5, a4⟩ := genAll_ok _ _ _ _ _ _ h1
  have hist := C38_history gk0 hn0 hs.rowsB pks
  have ek : gk'.kay = gk0.kay := by rw [a1, hist.1]
  have ee : gk'.enn = gk0.enn := by rw [a1, hist.1]
  have et : gk'.tee = gk0.tee := by rw [a1, hist.1]
  have eA : gk'.A = gk0.A := by rw [a1, hist.1]
  have hs' : Shaped gk' := by rw [a1]; exact addAll_shaped gk0 hs hn0 pks
  -- the key of the party
  have hks := rd_get h4
  have hparty : party < gk'.enn := by
    by_contra hc
    rw [List.getElem?_eq_none (by omega)] at hks
    cases hks
  obtain ⟨sk', no', pk, b1, b2, b3⟩ := a4 party (by omega)
  rw [hks] at b1
  obtain ⟨rfl, rfl⟩ := Prod.mk.inj (Option.some.inj b1)
  have hsj : Shaped (addAll gk0 (pks.take party)).1 := addAll_shaped gk0 hs hn0 _
  have histj := (C38_history gk0 hn0 hs.rowsB (pks.take party)).1
  obtain ⟨c1, c2, c3, c4⟩ := keyGen_relation hsj b3
  have ekj : (addAll gk0 (pks.take party)).1.kay = gk'.kay := by rw [histj, ek]
  have eAj : (addAll gk0 (pks.take party)).1.A = gk'.A := by rw [histj, eA]
  rw [ekj] at c1 c2 c3 c4
  rw [eAj] at c4
  -- all the keys have been added
  have hall : registered gk0.kay gk0.enn pks = pks := by
    unfold registered
    rw [List.filter_eq_self.2, List.take_of_length_le (by omega)]
    intro p hp
    obtain ⟨j, hj, rfl⟩ := List.getElem_of_mem hp
    obtain ⟨s, hsj⟩ := a5 j (by omega)
    rw [hist.2.2 j _ (List.getElem?_eq_getElem hj)] at hsj
    by_contra hc
    rw [if_neg (by intro hh; exact hc (by simpa using hh.1))] at hsj
    cases hsj
  have hB : gk'.B.getD party [] = pk := by
    rw [a1, hist.1, hall]
    dsimp only
    rw [List.getD_append _ _ _ _ (by omega)]
    exact getD_of_get b2
  -- the vectors
  obtain ⟨l2, g2⟩ := mapRes_range h2
  obtain ⟨l3, g3⟩ := mapRes_range h3
  obtain ⟨l5, g5⟩ := mapRes_range h5
  obtain ⟨l6, g6⟩ := mapRes_range h6
  obtain ⟨l7, g7⟩ := mapRes_range h7
  obtain ⟨l9, g9⟩ := mapRes_range h9
  obtain ⟨l10, g10⟩ := mapRes_range h10
  obtain ⟨pp, hpp⟩ : ∃ pp, pp = toPoly (sharingCoeffs ((List.range (gk'.tee - 1)).map C.shares) C.secret) := ⟨_, rfl⟩
  have hpt3 : ptxt3 = (interval 1 ((gk'.enn : ℤ) + 1)).map fun (x : ℤ) => pp.eval (x : ZMod q) := by
    rw [interval_get, List.map_map]
    apply list_ext_getD 0 l7 (by simp)
    intro i hi
    obtain ⟨x, y1, y2⟩ := g7 i hi
    have := (share_get _ _ _ _ _ y2).2
    rw [getD_of_get y1, this, hpp, List.getD_eq_getElem?_getD, List.getElem?_map, List.getElem?_range hi]
    simp
  -- decryption was correct
  have hdec : ∀ i < gk'.tee, ∃ c x e, ctxt1[i]? = some c ∧ dec[i]? = some (x, e) ∧
      gk'.decrypt delta sk party c = .ok (x, e) ∧ x = pp.eval (((1 + (i : ℕ) : ℤ)) : ZMod q) := by
    intro i hi
    obtain ⟨⟨x, e⟩, y1, y2⟩ := g5 i hi
    obtain ⟨c, y3, y4⟩ := Res.bind_eq_ok.1 y2
    obtain ⟨w, z1, z2⟩ := g6 i hi
    obtain ⟨d, z3, z2⟩ := Res.bind_eq_ok.1 z2
    obtain ⟨p1, z4, z2⟩ := Res.bind_eq_ok.1 z2
    obtain ⟨x', z5, z2⟩ := Res.bind_eq_ok.1 z2
    have z2 := Res.ok.inj z2
    have hw : w = false := by
      cases hw : w with
      | false => rfl
      | true =>
        exfalso
        rw [hw] at z1
        have : wrong.any id = true := List.any_eq_true.2 ⟨true, List.mem_of_getElem? z1, rfl⟩
        rw [this] at hwrong
        cases hwrong
    rw [hw] at z2
    have z3 := rd_get z3
    rw [y1] at z3
    obtain rfl := Option.some.inj z3
    obtain ⟨p2, u1, u2⟩ := g2 i (by omega)
    obtain ⟨sh, u3, u2⟩ := Res.bind_eq_ok.1 u2
    have z4 := rd_get z4
    rw [u1] at z4
    obtain rfl := Option.some.inj z4
    obtain rfl := Res.ok.inj u2
    have z5 := rd_get z5
    rw [List.getElem?_replicate, if_pos hparty] at z5
    obtain rfl := Option.some.inj z5
    refine ⟨c, x, e, rd_get y3, y1, y4, ?_⟩
    rw [hpp, ← (share_get _ _ _ _ _ u3).2]
    by_contra hne
    simp [hne] at z2
  have hpt1 : dec.map Prod.fst = (interval 1 ((gk'.tee : ℤ) + 1)).map fun (x : ℤ) => pp.eval (x : ZMod q) := by
    rw [interval_get, List.map_map]
    apply list_ext_getD 0 (by rw [List.length_map, l5]) (by simp)
    intro i hi
    obtain ⟨c, x, e, y1, y2, y3, y4⟩ := hdec i hi
    rw [List.getD_eq_getElem?_getD, List.getElem?_map, y2, List.getD_eq_getElem?_getD, List.getElem?_map,
      List.getElem?_range hi]
    simpa using y4
  obtain ⟨f1, f2, f3, f4, f5, f6, f7, f8⟩ := encrypt_relation hs' h8
  -- the ciphertexts
  have hmat : ∀ j < gk'.kay, ∃ row, ctMat[j]? = some row ∧ row.length = gk'.tee ∧
      ∀ i < gk'.tee, ∃ c, ctxt1[i]? = some c ∧ row.getD i 0 = c.1.getD j 0 := by
    intro j hj
    obtain ⟨row, y1, y2⟩ := g9 j hj
    obtain ⟨y3, y4⟩ := mapRes_range y2
    refine ⟨row, y1, y3, ?_⟩
    intro i hi
    obtain ⟨v, z1, z2⟩ := y4 i hi
    obtain ⟨c, z3, z4⟩ := Res.bind_eq_ok.1 z2
    exact ⟨c, rd_get z3, by rw [getD_of_get z1, getD_of_get (rd_get z4)]⟩
  have hvec : ∀ i < gk'.tee, ∃ c, ctxt1[i]? = some c ∧ ctVec.getD i 0 = c.2.getD party 0 := by
    intro i hi
    obtain ⟨v, z1, z2⟩ := g10 i hi
    obtain ⟨c, z3, z4⟩ := Res.bind_eq_ok.1 z2
    exact ⟨c, rd_get z3, by rw [getD_of_get z1, getD_of_get (rd_get z4)]⟩
  -- the secret
  have good := interval_good (q := q) gk'.tee (by omega) (by omega)
  have hsec := getSecret_eval (interval 1 ((gk'.tee : ℤ) + 1)) good.nodup good.range good.inj pp (by
    rw [hpp]
    refine lt_of_lt_of_le (degree_sharing _ _) ?_
    rw [interval_get]
    simp only [List.length_map, List.length_range]
    exact_mod_cast (by omega))
  have hla : lagrange.length = gk'.tee := by
    have := lagrangeOuter_eq (F := ZMod q) _ _ good.range good.inj
    unfold lagrangeCoeffs at h11
    rw [this] at h11
    rw [← Res.ok.inj h11, interval_get]
    simp
  have hsum : (∑ i ∈ Finset.range gk'.tee, lagrange.getD i 0 * (dec.map Prod.fst).getD i 0) = pp.eval 0 := by
    rw [← ntlInner_sum _ _ gk'.tee hla (by rw [List.length_map, l5]), hpt1]
    unfold getSecret at hsec
    rw [h11, Res.ok_bind] at hsec
    exact Res.ok.inj hsec
  refine ⟨?_, rfl, rfl, hparty, hla, ek, ee, et, hs'⟩
  subst hg
  constructor
  all_goals dsimp only
  · refine ⟨l9, ?_⟩
    intro row hrow
    obtain ⟨j, hj, rfl⟩ := List.getElem_of_mem hrow
    obtain ⟨row', y1, y2, -⟩ := hmat j (by omega)
    rw [List.getElem?_eq_getElem hj] at y1
    rw [Option.some.inj y1]
    exact y2
  · exact l10
  · rw [List.length_map, l5]
  · exact c1
  · rw [List.length_map, l5]
  · intro i hi
    obtain ⟨c, x, e, y1, y2, y3, -⟩ := hdec i hi
    obtain ⟨c', z1, z2⟩ := hvec i hi
    rw [y1] at z1
    obtain rfl := Option.some.inj z1
    have rel := C34_relation delta hd P.gk sk party c x e y3
    rw [z2, rel, hdel, List.getD_eq_getElem?_getD (l := List.map _ _), List.getElem?_map, y2,
      List.getD_eq_getElem?_getD (l := List.map _ _), List.getElem?_map, y2]
    simp only [Option.map_some, Option.getD_some]
    congr 2
    refine Finset.sum_congr rfl fun j hj => ?_
    obtain ⟨row, u1, -, u3⟩ := hmat j (Finset.mem_range.1 hj)
    obtain ⟨c'', u4, u5⟩ := u3 i hi
    rw [y1] at u4
    obtain rfl := Option.some.inj u4
    unfold entry
    rw [getD_of_get u1, u5]
  · exact f5
  · exact f6
  · exact l7
  · exact f2
  · exact f3
  · exact f4
  · exact f7
  · rw [hdel]; exact f8
  · exact c1
  · exact c2
  · rw [hB]; exact c4
  · rw [hsum, hH]
    obtain ⟨sp', v1, -, -, v2⟩ := C24_parity_check ntlKernel hker (interval 1 ((gk0.enn : ℤ) + 1)) gk0.tee (by omega)
    rw [hsp] at v1
    obtain rfl := Res.ok.inj v1
    have hlen : (interval 1 ((gk0.enn : ℤ) + 1)).length = gk0.enn := by rw [interval_get]; simp
    apply (v2 _ (by rw [List.length_cons, l7, hlen, ee])).2
    refine ⟨pp, ?_, ?_⟩
    · rw [hpp]
      refine lt_of_lt_of_le (degree_sharing _ _) ?_
      simp only [List.length_map, List.length_range]
      exact_mod_cast (by omega)
    · rw [hpt3, ee]

/-- **C66.** When the inputs can be made, for a party that exists: they are made if and only if each of the
rejection samplers meets a short enough vector; otherwise an exception is thrown.  No other outcome. -/
theorem C66_inputs_defined (delta : ℕ) (k n s1 s2 : ℤ) (crs : ℕ → ℕ → Elt (ZMod q) 2)
    (gk0 : GlobalKey q 2) (hnew : GlobalKey.new k n s1 s2 crs = .ok gk0) (hq : n < q) (h31 : n < 2 ^ 31)
    (party : ℕ) (hparty : party < gk0.enn) (C : MainCoins q) :
    (CoinsOk gk0 C → ∃ r, mainInputs delta gk0 party C = .ok r) ∧
    (¬ CoinsOk gk0 C → mainInputs delta gk0 party C = .throw) := by
  obtain ⟨hs, hn0, hk, hn, -, -, -⟩ := new_shaped k n s1 s2 crs gk0 hnew
  obtain ⟨ht0, hte, hk0, he0⟩ := new_tee hnew
  have hgen := genAll_total C.keys gk0.enn 0 gk0 hs (by omega)
  simp only [zero_add] at hgen
  unfold CoinsOk mainInputs
  by_cases hkeys : ∀ i < gk0.enn, KeyCoins gk0 (C.keys i)
  swap
  · rw [hgen.2 hkeys]
    exact ⟨fun h => absurd h.1 hkeys, fun _ => rfl⟩
  obtain ⟨⟨gk, ks⟩, h1⟩ := hgen.1 hkeys
  rw [h1, Res.ok_bind]
  simp only
  obtain ⟨pks, a1, a2, a3, a5, a4⟩ := genAll_ok _ _ _ _ _ _ h1
  have hist := C38_history gk0 hn0 hs.rowsB pks
  have ek : gk.kay = gk0.kay := by rw [a1, hist.1]
  have ee : gk.enn = gk0.enn := by rw [a1, hist.1]
  have et : gk.tee = gk0.tee := by rw [a1, hist.1]
  have e1 : gk.sigmaEnc1 = gk0.sigmaEnc1 := by rw [a1, hist.1]
  have e2 : gk.sigmaEnc2 = gk0.sigmaEnc2 := by rw [a1, hist.1]
  have hs' : Shaped gk := by rw [a1]; exact addAll_shaped gk0 hs hn0 pks
  have hcoins : ∀ c, EncCoins gk c ↔ EncCoins gk0 c := by
    intro c
    unfold EncCoins
    rw [ek, ee, e1, e2]
  have rdok : ∀ {α : Type} {l : List α} {i : ℕ} (hi : i < l.length), rd l i = .ok (l[i]'hi) := by
    intro α l i hi
    unfold rd
    rw [List.getElem?_eq_getElem hi]
  obtain ⟨sshr, hsshr⟩ : ∃ sshr, sshr = newSharing (interval 1 ((gk.enn : ℤ) + 1))
    ((List.range (gk.tee - 1)).map C.shares) C.secret := ⟨_, rfl⟩
  have lsshr : sshr.length = gk.enn + 1 := by
    rw [hsshr, newSharing_eq, interval_get]
    simp
  rw [← hsshr]
  obtain ⟨ptxt1, h2⟩ := mapRes_total (f := fun i => do
    let s ← rd sshr (i + 1)
    .ok (List.replicate gk.enn s)) (l := List.range gk.enn) (by
      intro i hi
      have := List.mem_range.1 hi
      rw [rdok (by omega), Res.ok_bind]
      exact ⟨_, rfl⟩)
  rw [h2, Res.ok_bind]
  obtain ⟨l2, g2⟩ := mapRes_range h2
  have hp : ∀ i < gk.enn, ∃ p, rd ptxt1 i = .ok p ∧ p.length = gk.enn := by
    intro i hi
    obtain ⟨p, u1, u2⟩ := g2 i hi
    obtain ⟨sh, u3, u2⟩ := Res.bind_eq_ok.1 u2
    obtain rfl := Res.ok.inj u2
    refine ⟨List.replicate gk.enn sh, ?_, List.length_replicate⟩
    unfold rd
    rw [u1]
  have hstep : ∀ i < gk.enn,
      (EncCoins gk (C.enc i) → ∃ r, (do
        let p ← rd ptxt1 i
        let r ← gk.encrypt delta p (C.enc i).1 (C.enc i).2.1 (C.enc i).2.2
        .ok r.1 : Res (EVec q 2 × EVec q 2)) = .ok r) ∧
      (¬ EncCoins gk (C.enc i) → (do
        let p ← rd ptxt1 i
        let r ← gk.encrypt delta p (C.enc i).1 (C.enc i).2.1 (C.enc i).2.2
        .ok r.1 : Res (EVec q 2 × EVec q 2)) = .throw) := by
    intro i hi
    obtain ⟨p, u1, u2⟩ := hp i hi
    have := encrypt_total (delta := delta) hs' u2 (C.enc i)
    rw [u1, Res.ok_bind]
    constructor
    · intro h
      obtain ⟨r, hr⟩ := this.1 h
      rw [hr]
      exact ⟨_, rfl⟩
    · intro h
      rw [this.2 h]
      rfl
  by_cases henc : ∀ i < gk.enn, EncCoins gk (C.enc i)
  swap
  · rw [mapRes_throw (l := List.range gk.enn)]
    · refine ⟨fun h => absurd (fun i hi => (hcoins _).2 (h.2.1 i (by omega))) henc, fun _ => rfl⟩
    · intro i hi
      have hi := List.mem_range.1 hi
      by_cases hc : EncCoins gk (C.enc i)
      · exact Or.inl ((hstep i hi).1 hc)
      · exact Or.inr ((hstep i hi).2 hc)
    · push Not at henc
      obtain ⟨i, hi, hc⟩ := henc
      exact ⟨i, List.mem_range.2 hi, (hstep i hi).2 hc⟩
  obtain ⟨ctxt1, h3⟩ := mapRes_total (f := fun i => do
    let p ← rd ptxt1 i
    let r ← gk.encrypt delta p (C.enc i).1 (C.enc i).2.1 (C.enc i).2.2
    .ok r.1) (l := List.range gk.enn) (by
      intro i hi
      have hi := List.mem_range.1 hi
      exact (hstep i hi).1 (henc i hi))
  rw [h3, Res.ok_bind]
  obtain ⟨l3, g3⟩ := mapRes_range h3
  have hc : ∀ i < gk.enn, ∃ c, rd ctxt1 i = .ok c ∧ c.1.length = gk.kay ∧ c.2.length = gk.enn := by
    intro i hi
    obtain ⟨c, u1, u2⟩ := g3 i hi
    obtain ⟨p, u3, u2⟩ := Res.bind_eq_ok.1 u2
    obtain ⟨⟨ct, r, f1, f2⟩, u4, u2⟩ := Res.bind_eq_ok.1 u2
    obtain rfl := Res.ok.inj u2
    obtain ⟨-, -, -, -, v1, v2, -⟩ := encrypt_relation hs' u4
    refine ⟨ct, ?_, v1, v2⟩
    unfold rd
    rw [u1]
  obtain ⟨sk, noise, pk, b1, b2, b3⟩ := a4 party (by omega)
  have hsk : sk.length = gk.kay := by
    have := (keyGen_relation (addAll_shaped gk0 hs hn0 _) b3).1
    rw [this, (C38_history gk0 hn0 hs.rowsB _).1, ek]
  have h4 : rd ks party = .ok (sk, noise) := by
    unfold rd
    rw [b1]
  rw [h4, Res.ok_bind]
  simp only
  obtain ⟨dec, h5⟩ := mapRes_total (f := fun i => do
    let c ← rd ctxt1 i
    gk.decrypt delta sk party c) (l := List.range gk.tee) (by
      intro i hi
      have hi := List.mem_range.1 hi
      obtain ⟨c, u1, u2, u3⟩ := hc i (by omega)
      rw [u1, Res.ok_bind]
      unfold GlobalKey.decrypt
      rw [if_neg (by simp [hsk]), if_neg (by simp [u2, u3]), if_neg (by omega), rdok (by simp; omega), Res.ok_bind]
      exact ⟨_, rfl⟩)
  rw [h5, Res.ok_bind]
  obtain ⟨l5, g5⟩ := mapRes_range h5
  obtain ⟨wrong, h6⟩ := mapRes_total (f := fun i => do
    let d ← rd dec i
    let p ← rd ptxt1 i
    let x ← rd p party
    .ok (decide (d.1 ≠ x))) (l := List.range gk.tee) (by
      intro i hi
      have hi := List.mem_range.1 hi
      obtain ⟨p, u1, u2⟩ := hp i (by omega)
      rw [rdok (by omega), Res.ok_bind, u1, Res.ok_bind, rdok (by omega), Res.ok_bind]
      exact ⟨_, rfl⟩)
  rw [h6, Res.ok_bind]
  obtain ⟨ptxt3, h7⟩ := mapRes_total (f := fun j => rd sshr (j + 1)) (l := List.range gk.enn) (by
      intro i hi
      have := List.mem_range.1 hi
      exact ⟨_, rdok (by omega)⟩)
  rw [h7, Res.ok_bind]
  have hre := encrypt_total (delta := delta) hs' (mapRes_range h7).1 C.reEnc
  by_cases hree : EncCoins gk C.reEnc
  swap
  · rw [hre.2 hree]
    exact ⟨fun h => absurd ((hcoins _).2 h.2.2) hree, fun _ => rfl⟩
  obtain ⟨⟨ct2, r, f1, f2⟩, h8⟩ := hre.1 hree
  rw [h8, Res.ok_bind]
  simp only
  obtain ⟨ctMat, h9⟩ := mapRes_total (f := fun j => mapRes (fun i => do
    let c ← rd ctxt1 i
    rd c.1 j) (List.range gk.tee)) (l := List.range gk.kay) (by
      intro j hj
      have hj := List.mem_range.1 hj
      apply mapRes_total
      intro i hi
      have hi := List.mem_range.1 hi
      obtain ⟨c, u1, u2, u3⟩ := hc i (by omega)
      rw [u1, Res.ok_bind]
      exact ⟨_, rdok (by omega)⟩)
  rw [h9, Res.ok_bind]
  obtain ⟨ctVec, h10⟩ := mapRes_total (f := fun i => do
    let c ← rd ctxt1 i
    rd c.2 party) (l := List.range gk.tee) (by
      intro i hi
      have hi := List.mem_range.1 hi
      obtain ⟨c, u1, u2, u3⟩ := hc i (by omega)
      rw [u1, Res.ok_bind]
      exact ⟨_, rdok (by omega)⟩)
  rw [h10, Res.ok_bind]
  have good := interval_good (q := q) gk.tee (by omega) (by omega)
  have h11 := lagrangeOuter_eq (F := ZMod q) _ _ good.range good.inj
  unfold lagrangeCoeffs
  rw [h11, Res.ok_bind]
  refine ⟨fun _ => ⟨_, rfl⟩, fun h => absurd ⟨hkeys, fun i hi => (hcoins _).1 (henc i (by omega)), (hcoins _).1 hree⟩ h⟩

end

/-! ### With the modulus of the library -/

section
instance factPrimeP : Fact (Nat.Prime Regev.P) := ⟨Props.C59_order_prime⟩

/-- **C66.** With the modulus and base of the library, and parameters that leave room for the noise (those of
`setParams` do, C35): the program never reports a decryption error, whatever the coins. -/
theorem C66_no_error (k n s1 s2 : ℤ) (hpar : 3 * (k * 2) * 2 ^ s1.toNat + 2 ^ s2.toNat ≤ (2 : ℤ) ^ 125)
    (crs : ℕ → ℕ → Elt (ZMod Regev.P) 2) (gk0 : GlobalKey Regev.P 2)
    (hnew : GlobalKey.new k n s1 s2 crs = .ok gk0) (party : ℕ) (C : MainCoins Regev.P)
    (gk : GlobalKey Regev.P 2) (inp : RoundInput Regev.P) (wrong : Bool)
    (h : mainInputs Regev.delta gk0 party C = .ok (gk, inp, wrong)) : wrong = false := by
  obtain ⟨hs, hn0, hk, hn, -, -, -⟩ := new_shaped k n s1 s2 crs gk0 hnew
  obtain ⟨ht0, hte, hk0, he0⟩ := new_tee hnew
  unfold mainInputs at h
  obtain ⟨⟨gk', ks⟩, h1, h⟩ := Res.bind_eq_ok.1 h
  simp only at h
  obtain ⟨ptxt1, h2, h⟩ := Res.bind_eq_ok.1 h
  obtain ⟨ctxt1, h3, h⟩ := Res.bind_eq_ok.1 h
  obtain ⟨⟨sk, noise⟩, h4, h⟩ := Res.bind_eq_ok.1 h
  obtain ⟨dec, h5, h⟩ := Res.bind_eq_ok.1 h
  obtain ⟨wr, h6, h⟩ := Res.bind_eq_ok.1 h
  obtain ⟨ptxt3, h7, h⟩ := Res.bind_eq_ok.1 h
  obtain ⟨⟨ct2, r, e1, e2⟩, h8, h⟩ := Res.bind_eq_ok.1 h
  simp only at h
  obtain ⟨ctMat, h9, h⟩ := Res.bind_eq_ok.1 h
  obtain ⟨ctVec, h10, h⟩ := Res.bind_eq_ok.1 h
  obtain ⟨lagrange, h11, h⟩ := Res.bind_eq_ok.1 h
  obtain ⟨hgk, hrest⟩ := Prod.mk.inj (Res.ok.inj h)
  obtain ⟨-, rfl⟩ := Prod.mk.inj hrest
  subst hgk
  simp only at h5
  obtain ⟨pks, a1, a2, a3, a5, a4⟩ := genAll_ok _ _ _ _ _ _ h1
  have hist := C38_history gk0 hn0 hs.rowsB pks
  have ee : gk'.enn = gk0.enn := by rw [a1, hist.1]
  have et : gk'.tee = gk0.tee := by rw [a1, hist.1]
  have hks := rd_get h4
  have hparty : party < gk'.enn := by
    by_contra hc
    rw [List.getElem?_eq_none (by omega)] at hks
    cases hks
  obtain ⟨sk', no', pk, b1, b2, b3⟩ := a4 party (by omega)
  rw [hks] at b1
  obtain ⟨rfl, rfl⟩ := Prod.mk.inj (Option.some.inj b1)
  have hall : registered gk0.kay gk0.enn pks = pks := by
    unfold registered
    rw [List.filter_eq_self.2, List.take_of_length_le (by omega)]
    intro p hp
    obtain ⟨j, hj, rfl⟩ := List.getElem_of_mem hp
    obtain ⟨s, hsj⟩ := a5 j (by omega)
    rw [hist.2.2 j _ (List.getElem?_eq_getElem hj)] at hsj
    by_contra hc
    rw [if_neg (by intro hh; exact hc (by simpa using hh.1))] at hsj
    cases hsj
  obtain ⟨l3, g3⟩ := mapRes_range h3
  obtain ⟨l5, g5⟩ := mapRes_range h5
  obtain ⟨l6, g6⟩ := mapRes_range h6
  rw [List.any_eq_false]
  intro w hw
  obtain ⟨i, hi, rfl⟩ := List.getElem_of_mem hw
  rw [l6] at hi
  obtain ⟨w, z1, z2⟩ := g6 i hi
  obtain ⟨d, z3, z2⟩ := Res.bind_eq_ok.1 z2
  obtain ⟨p1, z4, z2⟩ := Res.bind_eq_ok.1 z2
  obtain ⟨x', z5, z2⟩ := Res.bind_eq_ok.1 z2
  rw [List.getElem?_eq_getElem (by omega)] at z1
  rw [Option.some.inj z1, ← Res.ok.inj z2]
  obtain ⟨⟨x, e⟩, y1, y2⟩ := g5 i hi
  obtain ⟨c, y3, y4⟩ := Res.bind_eq_ok.1 y2
  have z3 := rd_get z3
  rw [y1] at z3
  obtain rfl := Option.some.inj z3
  obtain ⟨c', u1, u2⟩ := g3 i (by omega)
  have y3 := rd_get y3
  rw [u1] at y3
  obtain rfl := Option.some.inj y3
  obtain ⟨p, u3, u2⟩ := Res.bind_eq_ok.1 u2
  obtain ⟨⟨ct, wit⟩, u4, u2⟩ := Res.bind_eq_ok.1 u2
  obtain rfl := Res.ok.inj u2
  rw [z4] at u3
  obtain rfl := Res.ok.inj u3
  rw [a1] at u4 y4
  obtain ⟨noise', hdec, -⟩ := C35_no_failure k n s1 s2 hpar crs gk0 hnew (pks.take party) _ _ sk pk noise b3 pks party
    (by omega) (by rw [hall]; exact b2) _ _ _ _ ct wit u4
  rw [hdec] at y4
  have := (Prod.mk.inj (Res.ok.inj y4)).1
  simp only
  rw [← this, getD_of_get (rd_get z5)]
  simp

variable {G : Type} [AddCommGroup G] [Module (ZMod Regev.P) G]

/-- **C66.** A whole run of the program, with the modulus and base of the library, parameters that leave room
for the noise, any norm bounds that fit the field, any coins, any CRS, generators and transcript: if the
program gets as far as the final proofs, then it has not reported a decryption error; and if none of
the ten four-square searches failed and the two aggregation challenges are good, then both final proofs
are accepted (or the code throws, because the last challenge of the linear proof was zero). -/
theorem C66_run [DecidableEq G] {E : Env (ZMod Regev.P) G} (hE : LengthOk E) (getG getH : ℕ → G)
    (ntlKernel : List (List (ZMod Regev.P)) → List (List (ZMod Regev.P)))
    (hker : ∀ G nr nc, G.length = nr → (∀ r ∈ G, r.length = nc) → GeneratesLeftKernel (ntlKernel G) G nr nc)
    (bounds : GlobalKey Regev.P 2 → List (List (ZMod Regev.P)) → Res (Params Regev.P))
    (hb : ∀ gk H P, bounds gk H = .ok P → P.gk = gk ∧ P.H = H ∧ P.delta = Regev.delta)
    (k n s1 s2 : ℤ) (hpar : 3 * (k * 2) * 2 ^ s1.toNat + 2 ^ s2.toNat ≤ (2 : ℤ) ^ 125) (h31 : n < 2 ^ 31)
    (crs : ℕ → ℕ → Elt (ZMod Regev.P) 2) (party : ℕ) (C : MainCoins Regev.P) (mer : E.St)
    (rnd0 fresh : Blocks (ZMod Regev.P)) (r : ZMod Regev.P) {tests : ℕ → Tests}
    (hT : ∀ k, NoFalsePrimes (tests k).probPrime) (small : ℕ → SmallRnd Regev.P) (wrong : Bool)
    (P : Params Regev.P) (hP : ParamsOk P) (vd : VerifierData (ZMod Regev.P) G E.St) (pd : ProverData (ZMod Regev.P))
    (h : mainProve E getG getH ntlKernel bounds Regev.delta k n s1 s2 crs party C mer rnd0 fresh r tests small =
      .ok (wrong, P, vd, pd)) :
    wrong = false ∧
    ((∀ k < 10, ¬ PadFailed P tests (coef pd.linWitness) k) →
      ∀ (tie : List (CompIter (ZMod Regev.P)) → ℕ) (coinsL coinsQ : ℕ → ZMod Regev.P × ZMod Regev.P)
        (wRnd : ZMod Regev.P) (v : ReadyToProve (ZMod Regev.P) G) (r1 r2 : ZMod Regev.P) (st1 st2 : E.St),
      E.newChallenge vd.mer (str "aggregateLinear") = (r1, st1) →
      E.newChallenge st1 (str "aggregateNorms") = (r2, st2) →
      GoodChallenges vd (coef pd.linWitness) r1 r2 →
      ∃ v' vd' pd', aggregateProver E tie wRnd v vd pd = .ok (v', vd', pd') ∧
        (∀ rtv merL merQ pfL pfQ,
          finalProve E coinsL coinsQ v' vd' pd' = .ok (rtv, merL, merQ, pfL, pfQ) →
          (finalVerifyLin E rtv merL pfL = .ok true ∨
            (finalVerifyLin E rtv merL pfL = .throw ∧ (deriveLin E pfL rtv.linGs.length merL).x = 0)) ∧
          finalVerifyQuad E rtv merQ pfQ = .ok true) ∧
        ((0 ∈ finalChallenges E coinsL coinsQ v' vd' pd' ∧
          finalProve E coinsL coinsQ v' vd' pd' = .throw) ∨
         (0 ∉ finalChallenges E coinsL coinsQ v' vd' pd' ∧
          ∃ out, finalProve E coinsL coinsQ v' vd' pd' = .ok out))) := by
  unfold mainProve at h
  obtain ⟨gk0, hnew, h⟩ := Res.bind_eq_ok.1 h
  obtain ⟨sp, hsp, h⟩ := Res.bind_eq_ok.1 h
  obtain ⟨⟨gk, inp, wr⟩, hin, h⟩ := Res.bind_eq_ok.1 h
  simp only at h
  obtain ⟨P', hbd, h⟩ := Res.bind_eq_ok.1 h
  obtain ⟨vd0, h1, h⟩ := Res.bind_eq_ok.1 h
  obtain ⟨⟨vd1, pd1⟩, h2, h⟩ := Res.bind_eq_ok.1 h
  simp only at h
  obtain ⟨⟨vd2, pd2⟩, h3, h⟩ := Res.bind_eq_ok.1 h
  obtain ⟨e1, e⟩ := Prod.mk.inj (Res.ok.inj h)
  obtain ⟨e2, e⟩ := Prod.mk.inj e
  obtain ⟨e3, e4⟩ := Prod.mk.inj e
  simp only at e3 e4
  rw [e2] at h1 h3
  rw [e3, e4] at h3
  rw [e2] at hbd
  obtain ⟨b1, b2, b3⟩ := hb _ _ _ hbd
  have hw := C66_no_error k n s1 s2 hpar crs gk0 hnew party C gk inp wr hin
  rw [hw] at hin
  obtain ⟨hI, -, -, -, -, ek, ee, et, -⟩ := C66_inputs Regev.delta (by unfold Regev.delta; norm_num) k n s1 s2 crs
    gk0 hnew (h31.trans (by unfold Regev.P; norm_num)) h31 ntlKernel hker sp hsp party C gk inp hin P b1 b2 b3
  refine ⟨by rw [← e1, hw], fun hpad tie coinsL coinsQ wRnd v r1 r2 st1 st2 c1 c2 hC => ?_⟩
  obtain ⟨-, hte, -, -⟩ := new_tee hnew
  have S := init_start getG getH mer rnd0 inp.sk1 r hI.sk1 h1 h2 (by rw [b1]; omega)
  exact C64_complete hE hP hT hI S h3 hpad tie coinsL coinsQ wRnd v r1 r2 st1 st2 c1 c2 hC

end
end Verif.Props
