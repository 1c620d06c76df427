/-
Helper lemmas about the driver program.
-/
import Verif.Model.Main
import Verif.Props.RegevEnc
import Verif.Props.Shamir
import Verif.Lemmas.Decode
import Verif.Spec.Round
import Verif.Spec.Main

namespace Verif
open Spec Regev Props
open scoped BigOperators

theorem mapRes_get {α β : Type} {f : α → Res β} {l : List α} {r : List β} (h : mapRes f l = .ok r) :
    r.length = l.length ∧ ∀ (i : ℕ) (a : α), l[i]? = some a → ∃ b, r[i]? = some b ∧ f a = .ok b := by
  induction l generalizing r with
  | nil =>
    obtain rfl := Res.ok.inj h
    exact ⟨rfl, by simp⟩
  | cons x l ih =>
    unfold mapRes at h
    obtain ⟨b, h1, h⟩ := Res.bind_eq_ok.1 h
    obtain ⟨bs, h2, h⟩ := Res.bind_eq_ok.1 h
    obtain rfl := Res.ok.inj h
    obtain ⟨i1, i2⟩ := ih h2
    refine ⟨by simp [i1], ?_⟩
    intro i a ha
    cases i with
    | zero =>
      simp only [List.getElem?_cons_zero, Option.some.injEq] at ha
      subst ha
      exact ⟨b, rfl, h1⟩
    | succ i =>
      rw [List.getElem?_cons_succ] at ha ⊢
      exact i2 i a ha

theorem mapRes_range {β : Type} {f : ℕ → Res β} {n : ℕ} {r : List β} (h : mapRes f (List.range n) = .ok r) :
    r.length = n ∧ ∀ i < n, ∃ b, r[i]? = some b ∧ f i = .ok b := by
  obtain ⟨h1, h2⟩ := mapRes_get h
  refine ⟨by rw [h1, List.length_range], fun i hi => h2 i i (List.getElem?_range hi)⟩

theorem rd_get {α : Type} {l : List α} {i : ℕ} {a : α} (h : rd l i = .ok a) : l[i]? = some a := by
  unfold rd at h
  split at h
  · rename_i x hx
    cases h
    exact hx
  · cases h

theorem getD_of_get {α : Type} {l : List α} {i : ℕ} {a d : α} (h : l[i]? = some a) : l.getD i d = a := by
  rw [List.getD_eq_getElem?_getD, h]
  rfl

section
variable {q : ℕ} [Fact q.Prime]

instance : Fact (1 < q) := ⟨(Fact.out : q.Prime).one_lt⟩

/-- What the key generation loop does. -/
theorem genAll_ok (coins : ℕ → Rnd × Rnd) (k : ℕ) : ∀ (i : ℕ) (gk gk' : GlobalKey q 2)
    (ks : List (EVec q 2 × EVec q 2)), genAll coins k i gk = .ok (gk', ks) →
    ∃ pks, gk' = (addAll gk pks).1 ∧ pks.length = k ∧ ks.length = k ∧
      (∀ j < k, ∃ s, (addAll gk pks).2[j]? = some (.ok s)) ∧
      ∀ j < k, ∃ sk noise pk, ks[j]? = some (sk, noise) ∧ pks[j]? = some pk ∧
        (addAll gk (pks.take j)).1.keyGen (coins (i + j)).1 (coins (i + j)).2 = .ok (sk, pk, noise) := by
  induction k with
  | zero =>
    intro i gk gk' ks h
    unfold genAll at h
    obtain ⟨rfl, rfl⟩ := Prod.mk.inj (Res.ok.inj h)
    exact ⟨[], rfl, rfl, rfl, by omega, by omega⟩
  | succ k ih =>
    intro i gk gk' ks h
    unfold genAll at h
    obtain ⟨⟨sk, pk, noise⟩, h1, h⟩ := Res.bind_eq_ok.1 h
    simp only at h
    obtain ⟨n, h2, h⟩ := Res.bind_eq_ok.1 h
    obtain ⟨⟨gk2, rest⟩, h3, h⟩ := Res.bind_eq_ok.1 h
    obtain ⟨rfl, rfl⟩ := Prod.mk.inj (Res.ok.inj h)
    obtain ⟨pks, a1, a2, a3, a5, a4⟩ := ih _ _ _ _ h3
    refine ⟨pk :: pks, by rw [addAll]; exact a1, by simp [a2], by simp [a3], ?_, ?_⟩
    · intro j hj
      cases j with
      | zero => exact ⟨n, by rw [addAll]; simp [h2]⟩
      | succ j =>
        obtain ⟨s, hs⟩ := a5 j (by omega)
        exact ⟨s, by rw [addAll]; simpa using hs⟩
    · intro j hj
      cases j with
      | zero => exact ⟨sk, noise, pk, rfl, rfl, by simpa [addAll] using h1⟩
      | succ j =>
        obtain ⟨sk', no', pk', b1, b2, b3⟩ := a4 j (by omega)
        refine ⟨sk', no', pk', b1, b2, ?_⟩
        rw [List.take_succ_cons, addAll, show i + (j + 1) = i + 1 + j by ring]
        exact b3

/-- An inner product, term by term. -/
theorem ip_range (a b : EVec q 2) (m : ℕ) (ha : a.length = m) (hb : b.length = m) :
    ip a b = ∑ k ∈ Finset.range m, a.getD k 0 * b.getD k 0 := ip_eq a b m ha hb

/-- Every ciphertext decrypts to the result of the decryption, with the noise that is returned. -/
theorem decrypt_relation {delta : ℕ} (hd : 0 < delta) {gk : GlobalKey q 2} {sk : EVec q 2} {idx : ℤ}
    {ct : EVec q 2 × EVec q 2} {x : ZMod q} {e : Elt (ZMod q) 2} (h : gk.decrypt delta sk idx ct = .ok (x, e)) :
    sk.length = gk.kay ∧ ct.1.length = gk.kay ∧ ct.2.length = gk.enn ∧ 0 ≤ idx ∧ idx < gk.enn ∧
    ct.2.getD idx.toNat 0 = (∑ k ∈ Finset.range gk.kay, sk.getD k 0 * ct.1.getD k 0) + x • g q 2 delta + e := by
  have hq : NeZero q := ⟨(Fact.out : q.Prime).ne_zero⟩
  unfold GlobalKey.decrypt at h
  by_cases h1 : sk.length ≠ gk.kay
  · rw [if_pos h1] at h; cases h
  rw [if_neg h1] at h
  by_cases h2 : ct.1.length ≠ gk.kay ∨ ct.2.length ≠ gk.enn
  · rw [if_pos h2] at h; cases h
  rw [if_neg h2] at h
  by_cases h3 : idx < 0 ∨ idx ≥ gk.enn
  · rw [if_pos h3] at h; cases h
  rw [if_neg h3] at h
  push Not at h1 h2 h3
  obtain ⟨c, h4, h⟩ := Res.bind_eq_ok.1 h
  have h := Res.ok.inj h
  have := decode_exact 1 delta hd (ip sk ct.1 - c)
  rw [h] at this
  refine ⟨h1, h2.1, h2.2, h3.1, h3.2, ?_⟩
  rw [getD_of_get (rd_get h4), ← ip_range sk ct.1 gk.kay h1 h2.1]
  simp only at this
  linear_combination -this

/-- What the encryption returns. -/
theorem encrypt_relation {delta : ℕ} {gk : GlobalKey q 2} (hs : Shaped gk) {ptxt : List (ZMod q)}
    {rr r1 r2 : Rnd} {ct : EVec q 2 × EVec q 2} {r e1 e2 : EVec q 2}
    (h : gk.encrypt delta ptxt rr r1 r2 = .ok (ct, (r, e1, e2))) :
    ptxt.length = gk.enn ∧ r.length = gk.kay ∧ e1.length = gk.kay ∧ e2.length = gk.enn ∧
    ct.1.length = gk.kay ∧ ct.2.length = gk.enn ∧ Encrypts1 gk.kay gk.A ct.1 r e1 ∧
    Encrypts2 delta gk.kay gk.enn gk.B ct.2 ptxt r e2 := by
  have hq : NeZero q := ⟨(Fact.out : q.Prime).ne_zero⟩
  obtain ⟨hp, hr, he1, he2, hc1, hc2⟩ := encrypt_ok delta gk hs ptxt rr r1 r2 ct r e1 e2 h
  have lr := (sampleLoop_ok _ _ _ _ _ _ _ hr).1
  have l1 := (sampleLoop_ok _ _ _ _ _ _ _ he1).1
  have l2 := (sampleLoop_ok _ _ _ _ _ _ _ he2).1
  refine ⟨hp, lr, l1, l2, by simp [hc1, hs.rowsA, l1], by simp [hc2, hs.rowsB, l2, hp], ?_, ?_⟩
  · intro i hi
    have hA : i < gk.A.length := by rw [hs.rowsA]; exact hi
    have hrow : gk.A[i].length = gk.kay := hs.colsA _ (List.getElem_mem hA)
    rw [hc1, getD_zipWith_add _ _ (by simp [hs.rowsA, l1])]
    congr 1
    rw [List.getD_eq_getElem?_getD, List.getElem?_map, List.getElem?_eq_getElem hA, Option.map_some,
      Option.getD_some, ip_range _ _ gk.kay hrow lr]
    refine Finset.sum_congr rfl fun k _ => ?_
    unfold entry
    rw [List.getD_eq_getElem?_getD (l := gk.A), List.getElem?_eq_getElem hA, Option.getD_some]
  · intro i hi
    have hB : i < gk.B.length := by rw [hs.rowsB]; exact hi
    have hrow : gk.B[i].length = gk.kay := hs.colsB _ (List.getElem_mem hB)
    have hp' : i < ptxt.length := by rw [hp]; exact hi
    have he' : i < e2.length := by rw [l2]; exact hi
    have : ct.2[i]? = some (ip gk.B[i] r + (ptxt[i] • g q 2 delta + e2[i])) := by
      rw [hc2]; simp [hB, hp', he']
    rw [getD_of_get this, ip_range _ _ gk.kay hrow lr, List.getD_eq_getElem?_getD (l := ptxt),
      List.getElem?_eq_getElem hp', List.getD_eq_getElem?_getD (l := e2), List.getElem?_eq_getElem he',
      Option.getD_some, Option.getD_some, ← add_assoc]
    congr 2
    refine Finset.sum_congr rfl fun k _ => ?_
    unfold entry
    rw [List.getD_eq_getElem?_getD (l := gk.B), List.getElem?_eq_getElem hB, Option.getD_some]

/-- What the key generation returns. -/
theorem keyGen_relation {gk : GlobalKey q 2} (hs : Shaped gk) {rsk rno : Rnd} {sk pk noise : EVec q 2}
    (h : gk.keyGen rsk rno = .ok (sk, pk, noise)) :
    sk.length = gk.kay ∧ noise.length = gk.kay ∧ pk.length = gk.kay ∧ KeyFor gk.kay gk.A pk sk noise := by
  have hq : NeZero q := ⟨(Fact.out : q.Prime).ne_zero⟩
  obtain ⟨h1, h2, h3, h4⟩ := keyGen_ok gk hs _ _ _ _ _ h
  have l1 := (sampleLoop_ok _ _ _ _ _ _ _ h1).1
  refine ⟨l1, (sampleLoop_ok _ _ _ _ _ _ _ h2).1, h3, ?_⟩
  intro j hj
  rw [h4 j hj]
  congr 1
  unfold eltDot
  rw [← ip_eq_sum, ip_range _ _ gk.kay l1 (by simp [hs.rowsA])]
  refine Finset.sum_congr rfl fun k hk => ?_
  have hk' : k < gk.A.length := by rw [hs.rowsA]; exact Finset.mem_range.1 hk
  unfold entry
  rw [List.getD_eq_getElem?_getD (l := List.map _ _), List.getElem?_map, List.getElem?_eq_getElem hk',
    Option.map_some,
    Option.getD_some, List.getD_eq_getElem?_getD (l := gk.A), List.getElem?_eq_getElem hk', Option.getD_some]

/-! ### When the random choices succeed -/

theorem mapRes_total {α β : Type} {f : α → Res β} {l : List α} (h : ∀ a ∈ l, ∃ b, f a = .ok b) :
    ∃ r, mapRes f l = .ok r := by
  induction l with
  | nil => exact ⟨[], rfl⟩
  | cons x l ih =>
    obtain ⟨b, hb⟩ := h x List.mem_cons_self
    obtain ⟨r, hr⟩ := ih fun a ha => h a (List.mem_cons_of_mem _ ha)
    exact ⟨b :: r, by rw [mapRes, hb, Res.ok_bind, hr]; rfl⟩

theorem mapRes_throw {α β : Type} {f : α → Res β} {l : List α} (h : ∀ a ∈ l, (∃ b, f a = .ok b) ∨ f a = .throw)
    (h' : ∃ a ∈ l, f a = .throw) : mapRes f l = .throw := by
  induction l with
  | nil => obtain ⟨a, ha, -⟩ := h'; cases ha
  | cons x l ih =>
    rcases h x List.mem_cons_self with ⟨b, hb⟩ | hb
    · obtain ⟨a, ha, ha'⟩ := h'
      rcases List.mem_cons.1 ha with rfl | hm
      · rw [hb] at ha'; cases ha'
      · rw [mapRes, hb, Res.ok_bind, ih (fun a ha => h a (List.mem_cons_of_mem _ ha)) ⟨a, hm, ha'⟩]
        rfl
    · rw [mapRes, hb]
      rfl

theorem sampleLoop_total (len n : ℕ) (bound : ℤ) (rnd : Rnd) (k t : ℕ) :
    ((∃ t', t ≤ t' ∧ t' < t + k ∧
      normSquaredE ((List.range len).map fun i => boundedElement n (rnd t' i) : EVec q 2) ≤ bound) →
      ∃ v, sampleLoop (q := q) (ell := 2) len n bound rnd t k = .ok v) ∧
    (¬ (∃ t', t ≤ t' ∧ t' < t + k ∧
      normSquaredE ((List.range len).map fun i => boundedElement n (rnd t' i) : EVec q 2) ≤ bound) →
      sampleLoop (q := q) (ell := 2) len n bound rnd t k = .throw) := by
  induction k generalizing t with
  | zero => exact ⟨fun ⟨t', h1, h2, _⟩ => by omega, fun _ => rfl⟩
  | succ k ih =>
    unfold sampleLoop
    simp only
    by_cases hc : normSquaredE ((List.range len).map fun i => boundedElement n (rnd t i) : EVec q 2) ≤ bound
    · rw [if_pos hc]
      exact ⟨fun _ => ⟨_, rfl⟩, fun h => absurd ⟨t, le_rfl, by omega, hc⟩ h⟩
    · rw [if_neg hc]
      constructor
      · rintro ⟨t', h1, h2, h3⟩
        apply (ih (t + 1)).1
        refine ⟨t', ?_, by omega, h3⟩
        by_contra hlt
        have : t' = t := by omega
        subst this
        exact hc h3
      · intro h
        apply (ih (t + 1)).2
        rintro ⟨t', h1, h2, h3⟩
        exact h ⟨t', by omega, by omega, h3⟩

theorem drawn_total (len n : ℕ) (bound : ℤ) (rnd : Rnd) (k : ℕ) :
    (Drawn q len n bound rnd k → ∃ v, sampleLoop (q := q) (ell := 2) len n bound rnd 0 k = .ok v) ∧
    (¬ Drawn q len n bound rnd k → sampleLoop (q := q) (ell := 2) len n bound rnd 0 k = .throw) := by
  have h := sampleLoop_total (q := q) len n bound rnd k 0
  simp only [Nat.zero_le, true_and, zero_add] at h
  exact h

theorem bound_sk (k : ℕ) : (4 * (k : ℤ) * (2 : ℕ)) = 8 * k := by push_cast; ring

theorem bound_noise (s k : ℕ) : (2 ^ (2 * s) * (k : ℤ) * (2 : ℕ) / 2) = 4 ^ s * k := by
  rw [pow_mul]
  push_cast
  rw [Int.mul_ediv_cancel _ (by norm_num)]

theorem vecMat_total {gk : GlobalKey q 2} (hs : Shaped gk) {v : EVec q 2} (hv : v.length = gk.kay) :
    ∃ r, vecMat v gk.A gk.kay = .ok r := by
  unfold vecMat
  rw [if_neg (by rw [hs.rowsA, hv]; simp)]
  exact ⟨_, rfl⟩

theorem matVec_total {A : EMat q 2} {cols : ℕ} {v : EVec q 2} (hv : v.length = cols) :
    ∃ r, Regev.matVec A cols v = .ok r := by
  unfold Regev.matVec
  rw [if_neg (by simp [hv])]
  exact ⟨_, rfl⟩

theorem keyGen_total {gk : GlobalKey q 2} (hs : Shaped gk) (c : Rnd × Rnd) :
    (KeyCoins gk c → ∃ r, gk.keyGen c.1 c.2 = .ok r) ∧ (¬ KeyCoins gk c → gk.keyGen c.1 c.2 = .throw) := by
  have d1 := drawn_total (q := q) gk.kay rho (4 * gk.kay * (2 : ℕ)) c.1 51
  have d2 := drawn_total (q := q) gk.kay gk.sigmaEnc1 (2 ^ (2 * gk.sigmaEnc1) * gk.kay * (2 : ℕ) / 2) c.2 51
  unfold KeyCoins GlobalKey.keyGen
  rw [← bound_sk, ← bound_noise]
  by_cases h1 : Drawn q gk.kay 2 (4 * gk.kay * (2 : ℕ)) c.1 51
  · obtain ⟨sk, h3⟩ := d1.1 h1
    by_cases h2 : Drawn q gk.kay gk.sigmaEnc1 (2 ^ (2 * gk.sigmaEnc1) * gk.kay * (2 : ℕ) / 2) c.2 51
    · obtain ⟨noise, h4⟩ := d2.1 h2
      refine ⟨fun _ => ?_, fun h => absurd ⟨h1, h2⟩ h⟩
      have l1 := (sampleLoop_ok _ _ _ _ _ _ _ h3).1
      obtain ⟨skA, h5⟩ := vecMat_total hs l1
      rw [h3, Res.ok_bind, h4, Res.ok_bind, h5]
      exact ⟨_, rfl⟩
    · refine ⟨fun h => absurd h.2 h2, fun _ => ?_⟩
      rw [h3, Res.ok_bind, d2.2 h2]
      rfl
  · refine ⟨fun h => absurd h.1 h1, fun _ => ?_⟩
    rw [show sampleLoop gk.kay rho _ c.1 0 51 = _ from d1.2 h1]
    rfl

theorem encrypt_total {delta : ℕ} {gk : GlobalKey q 2} (hs : Shaped gk) {ptxt : List (ZMod q)}
    (hp : ptxt.length = gk.enn) (c : Rnd × Rnd × Rnd) :
    (EncCoins gk c → ∃ r, gk.encrypt delta ptxt c.1 c.2.1 c.2.2 = .ok r) ∧
    (¬ EncCoins gk c → gk.encrypt delta ptxt c.1 c.2.1 c.2.2 = .throw) := by
  have d1 := drawn_total (q := q) gk.kay rho (4 * gk.kay * (2 : ℕ)) c.1 51
  have d2 := drawn_total (q := q) gk.kay gk.sigmaEnc1 (2 ^ (2 * gk.sigmaEnc1) * gk.kay * (2 : ℕ) / 2) c.2.1 25
  have d3 := drawn_total (q := q) gk.enn gk.sigmaEnc2 (2 ^ (2 * gk.sigmaEnc2) * gk.enn * (2 : ℕ) / 2) c.2.2 25
  unfold EncCoins GlobalKey.encrypt
  rw [← bound_sk, ← bound_noise, ← bound_noise, if_neg (by simp [hs.rowsA, hs.rowsB]), if_neg (by simp [hp, hs.rowsB])]
  by_cases h1 : Drawn q gk.kay 2 (4 * gk.kay * (2 : ℕ)) c.1 51
  · obtain ⟨r, h3⟩ := d1.1 h1
    have l1 := (sampleLoop_ok _ _ _ _ _ _ _ h3).1
    obtain ⟨c1, m1⟩ := matVec_total (A := gk.A) l1
    obtain ⟨c2, m2⟩ := matVec_total (A := gk.B) l1
    rw [h3, Res.ok_bind, m1, Res.ok_bind, m2, Res.ok_bind]
    by_cases h2 : Drawn q gk.kay gk.sigmaEnc1 (2 ^ (2 * gk.sigmaEnc1) * gk.kay * (2 : ℕ) / 2) c.2.1 25
    · obtain ⟨e1, h4⟩ := d2.1 h2
      rw [h4, Res.ok_bind]
      by_cases h5 : Drawn q gk.enn gk.sigmaEnc2 (2 ^ (2 * gk.sigmaEnc2) * gk.enn * (2 : ℕ) / 2) c.2.2 25
      · obtain ⟨e2, h6⟩ := d3.1 h5
        rw [h6]
        exact ⟨fun _ => ⟨_, rfl⟩, fun h => absurd ⟨h1, h2, h5⟩ h⟩
      · rw [d3.2 h5]
        exact ⟨fun h => absurd h.2.2 h5, fun _ => rfl⟩
    · rw [d2.2 h2]
      exact ⟨fun h => absurd h.2.1 h2, fun _ => rfl⟩
  · refine ⟨fun h => absurd h.1 h1, fun _ => ?_⟩
    rw [show sampleLoop gk.kay rho _ c.1 0 51 = _ from d1.2 h1]
    rfl

/-- A key pair can be added while there is room. -/
theorem addPK_total {gk : GlobalKey q 2} (hs : Shaped gk) {pk : EVec q 2} (hp : pk.length = gk.kay)
    (hn : gk.nPks < gk.enn) : ∃ gk', gk.addPK pk = (gk', .ok gk.nPks) ∧ Shaped gk' ∧ gk'.kay = gk.kay ∧
      gk'.enn = gk.enn ∧ gk'.sigmaEnc1 = gk.sigmaEnc1 ∧ gk'.nPks = gk.nPks + 1 := by
  unfold GlobalKey.addPK
  rw [if_neg (by simp [hp])]
  simp only
  rw [if_neg (by omega)]
  refine ⟨_, rfl, ⟨hs.rowsA, hs.colsA, by simp [hs.rowsB], ?_⟩, rfl, rfl, rfl, rfl⟩
  intro row hrow
  rcases List.mem_or_eq_of_mem_set hrow with h | h
  · exact hs.colsB row h
  · rw [h]; exact hp

theorem genAll_total (coins : ℕ → Rnd × Rnd) (k : ℕ) : ∀ (i : ℕ) (gk : GlobalKey q 2), Shaped gk →
    gk.nPks + k ≤ gk.enn →
    ((∀ j < k, KeyCoins gk (coins (i + j))) → ∃ r, genAll coins k i gk = .ok r) ∧
    (¬ (∀ j < k, KeyCoins gk (coins (i + j))) → genAll coins k i gk = .throw) := by
  induction k with
  | zero =>
    intro i gk _ _
    exact ⟨fun _ => ⟨_, rfl⟩, fun h => absurd (by omega) h⟩
  | succ k ih =>
    intro i gk hs hn
    unfold genAll
    have hk := keyGen_total hs (coins i)
    by_cases h1 : KeyCoins gk (coins i)
    · obtain ⟨⟨sk, pk, noise⟩, h2⟩ := hk.1 h1
      rw [h2, Res.ok_bind]
      simp only
      obtain ⟨gk', h3, h4, h5, h6, h7, h8⟩ := addPK_total hs (keyGen_relation hs h2).2.2.1 (by omega)
      rw [h3]
      simp only
      rw [Res.ok_bind]
      have hc : ∀ c, KeyCoins gk' c ↔ KeyCoins gk c := by
        intro c
        unfold KeyCoins
        rw [h5, h7]
      have hsplit : (∀ j < k + 1, KeyCoins gk (coins (i + j))) ↔ ∀ j < k, KeyCoins gk' (coins (i + 1 + j)) := by
        constructor
        · intro h j hj
          rw [hc, show i + 1 + j = i + (j + 1) by ring]
          exact h (j + 1) (by omega)
        · intro h j hj
          cases j with
          | zero => exact h1
          | succ j =>
            have := h j (by omega)
            rwa [hc, show i + 1 + j = i + (j + 1) by ring] at this
      rw [hsplit]
      have := ih (i + 1) gk' h4 (by omega)
      constructor
      · intro h
        obtain ⟨r, hr⟩ := this.1 h
        rw [hr]
        exact ⟨_, rfl⟩
      · intro h
        rw [this.2 h]
        rfl
    · rw [hk.2 h1]
      exact ⟨fun h => absurd (h 0 (by omega)) h1, fun _ => rfl⟩

end
end Verif
