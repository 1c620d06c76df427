/- Lemmas for special soundness. -/
import Verif.Spec.Soundness
import Verif.Lemmas.BPComplete
import Mathlib.Tactic.FieldSimp
import Mathlib.Tactic.Module

namespace Verif
open Spec

section
variable {F G : Type} [Field F] [AddCommGroup G] [Module F G]

/-- `a` may be longer than what is left of `gs`. -/
theorem mexp_append_left (a b : List F) (gs : List G) :
    mexp (a ++ b) gs = mexp a (gs.take a.length) + mexp b (gs.drop a.length) := by
  induction a generalizing gs with
  | nil => simp
  | cons x a ih => cases gs with
    | nil => simp
    | cons g gs => simp [ih, add_assoc]

theorem mexp_zip_add (p q : List F) (gs : List G) (h : p.length = q.length) :
    mexp (List.zipWith (· + ·) p q) gs = mexp p gs + mexp q gs := by
  rw [← addInto_eq_zipWith p q h.symm, mexp_addInto_left gs h.ge]

theorem mexp_map_mul (c : F) (p : List F) (gs : List G) : mexp (p.map (c * ·)) gs = c • mexp p gs := by
  induction p generalizing gs with
  | nil => simp
  | cons x p ih => cases gs with
    | nil => simp
    | cons g gs => simp [ih, mul_smul]

theorem comb3_length (c₁ c₂ c₃ : F) (v₁ v₂ v₃ : List F) (h1 : v₁.length = v₃.length) (h2 : v₂.length = v₃.length) :
    (comb3 c₁ v₁ c₂ v₂ c₃ v₃).length = v₃.length := by
  simp [comb3, h1, h2]

theorem mexp_comb3 (c₁ c₂ c₃ : F) (v₁ v₂ v₃ : List F) (gs : List G) (h1 : v₁.length = v₃.length)
    (h2 : v₂.length = v₃.length) :
    mexp (comb3 c₁ v₁ c₂ v₂ c₃ v₃) gs = c₁ • mexp v₁ gs + c₂ • mexp v₂ gs + c₃ • mexp v₃ gs := by
  unfold comb3
  rw [mexp_zip_add _ _ _ (by simp [h1, h2]), mexp_zip_add _ _ _ (by simp [h2]), mexp_map_mul, mexp_map_mul,
    mexp_map_mul, add_assoc]

theorem weights {x₁ x₂ x₃ : F} (h12 : x₁ ≠ x₂) (h13 : x₁ ≠ x₃) (h23 : x₂ ≠ x₃) (h1 : x₁ ≠ 0) (h2 : x₂ ≠ 0)
    (h3 : x₃ ≠ 0) :
    weight x₁ x₂ x₃ + weight x₂ x₁ x₃ + weight x₃ x₁ x₂ = 1 ∧
    weight x₁ x₂ x₃ * x₁ + weight x₂ x₁ x₃ * x₂ + weight x₃ x₁ x₂ * x₃ = 0 ∧
    weight x₁ x₂ x₃ * x₁⁻¹ + weight x₂ x₁ x₃ * x₂⁻¹ + weight x₃ x₁ x₂ * x₃⁻¹ = 0 := by
  have a := sub_ne_zero.2 h12
  have b := sub_ne_zero.2 h13
  have c := sub_ne_zero.2 h23
  have a' := sub_ne_zero.2 h12.symm
  have b' := sub_ne_zero.2 h13.symm
  have c' := sub_ne_zero.2 h23.symm
  have e21 : weight x₂ x₁ x₃ = (x₂ * (x₁ + x₃)) / ((x₁ - x₂) * (x₂ - x₃)) := by
    unfold weight
    rw [show (x₂ - x₁) * (x₂ - x₃) = -((x₁ - x₂) * (x₂ - x₃)) by ring, neg_div_neg_eq]
  have e31 : weight x₃ x₁ x₂ = -(x₃ * (x₁ + x₂)) / ((x₁ - x₃) * (x₂ - x₃)) := by
    unfold weight
    rw [show (x₃ - x₁) * (x₃ - x₂) = (x₁ - x₃) * (x₂ - x₃) by ring]
  rw [e21, e31]
  unfold weight
  refine ⟨?_, ?_, ?_⟩ <;> field_simp <;> ring

/-- Extraction in terms of the verification equation after folding. -/
def LinGood (base : G) : LinTree F G → Nat → G → List G → Prop
  | .leaf S x₁ a₁ r₁ x₂ a₂ r₂, k, Q, gs => k = 0 ∧ x₁ ≠ x₂ ∧
      S + x₁ • Q = r₁ • base + a₁ • mexp [(1 : F)] gs ∧ S + x₂ • Q = r₂ • base + a₂ • mexp [(1 : F)] gs
  | .node L R x₁ x₂ x₃ t₁ t₂ t₃, k, Q, gs => ∃ m, k = m + 1 ∧ x₁ ≠ x₂ ∧ x₁ ≠ x₃ ∧ x₂ ≠ x₃ ∧
      x₁ ≠ 0 ∧ x₂ ≠ 0 ∧ x₃ ≠ 0 ∧
      LinGood base t₁ m (Q + x₁ • L + x₁⁻¹ • R) (foldP (2 ^ m) x₁ gs) ∧
      LinGood base t₂ m (Q + x₂ • L + x₂⁻¹ • R) (foldP (2 ^ m) x₂ gs) ∧
      LinGood base t₃ m (Q + x₃ • L + x₃⁻¹ • R) (foldP (2 ^ m) x₃ gs)

theorem mexp_foldP (a : List F) (gs : List G) (m : Nat) (x : F) (ha : a.length = 2 ^ m) (hg : gs.length ≤ 2 ^ (m + 1)) :
    mexp a (foldP (2 ^ m) x gs) = mexp a (gs.take (2 ^ m)) + x • mexp a (gs.drop (2 ^ m)) := by
  unfold foldP
  rw [pow_succ] at hg
  have hl : (gs.drop (2 ^ m)).length ≤ (gs.take (2 ^ m)).length := by
    rw [List.length_drop, List.length_take]; omega
  rw [mexp_addInto_right _ (by simpa using hl), mexp_smul_right]

theorem linGood_extract (base : G) (t : LinTree F G) : ∀ (k : Nat) (Q : G) (gs : List G),
    gs.length ≤ 2 ^ k → LinGood base t k Q gs →
    t.extract.2.length = 2 ^ k ∧ Q = t.extract.1 • base + mexp t.extract.2 gs := by
  induction t with
  | leaf S x₁ a₁ r₁ x₂ a₂ r₂ =>
    rintro k Q gs hg ⟨rfl, hx, h1, h2⟩
    refine ⟨rfl, ?_⟩
    have hx' := sub_ne_zero.2 hx
    have key : (x₁ - x₂) • Q = (r₁ - r₂) • base + (a₁ - a₂) • mexp [(1 : F)] gs := by
      have : (x₁ - x₂) • Q = (S + x₁ • Q) - (S + x₂ • Q) := by module
      rw [this, h1, h2]; module
    have e : mexp (LinTree.leaf S x₁ a₁ r₁ x₂ a₂ r₂).extract.2 gs = ((a₁ - a₂) / (x₁ - x₂)) • mexp [(1 : F)] gs := by
      cases gs <;> simp [LinTree.extract]
    rw [e]
    have : Q = (x₁ - x₂)⁻¹ • ((x₁ - x₂) • Q) := by rw [smul_smul, inv_mul_cancel₀ hx', one_smul]
    rw [this, key]
    simp only [LinTree.extract, smul_add, smul_smul, div_eq_inv_mul]
  | node L R x₁ x₂ x₃ t₁ t₂ t₃ ih₁ ih₂ ih₃ =>
    rintro k Q gs hg ⟨m, rfl, h12, h13, h23, h1, h2, h3, g1, g2, g3⟩
    have hl : ∀ x : F, (foldP (2 ^ m) x gs).length ≤ 2 ^ m := by intro x; simp
    obtain ⟨l1, e1⟩ := ih₁ m _ _ (hl _) g1
    obtain ⟨l2, e2⟩ := ih₂ m _ _ (hl _) g2
    obtain ⟨l3, e3⟩ := ih₃ m _ _ (hl _) g3
    rw [mexp_foldP _ _ _ _ l1 hg] at e1
    rw [mexp_foldP _ _ _ _ l2 hg] at e2
    rw [mexp_foldP _ _ _ _ l3 hg] at e3
    obtain ⟨w0, w1, w2⟩ := weights h12 h13 h23 h1 h2 h3
    simp only [LinTree.extract]
    generalize weight x₁ x₂ x₃ = v₁ at *
    generalize weight x₂ x₁ x₃ = v₂ at *
    generalize weight x₃ x₁ x₂ = v₃ at *
    have c1 := comb3_length v₁ v₂ v₃ t₁.extract.2 t₂.extract.2 t₃.extract.2 (by omega) (by omega)
    have c2 := comb3_length (v₁ * x₁) (v₂ * x₂) (v₃ * x₃) t₁.extract.2 t₂.extract.2 t₃.extract.2 (by omega) (by omega)
    refine ⟨by rw [List.length_append, c1, c2, l3, pow_succ]; ring, ?_⟩
    rw [mexp_append_left, c1, l3, mexp_comb3 _ _ _ _ _ _ _ (by omega) (by omega),
      mexp_comb3 _ _ _ _ _ _ _ (by omega) (by omega)]
    have : Q = v₁ • (Q + x₁ • L + x₁⁻¹ • R) + v₂ • (Q + x₂ • L + x₂⁻¹ • R) + v₃ • (Q + x₃ • L + x₃⁻¹ • R) := by
      have : v₁ • (Q + x₁ • L + x₁⁻¹ • R) + v₂ • (Q + x₂ • L + x₂⁻¹ • R) + v₃ • (Q + x₃ • L + x₃⁻¹ • R) =
        (v₁ + v₂ + v₃) • Q + (v₁ * x₁ + v₂ * x₂ + v₃ * x₃) • L + (v₁ * x₁⁻¹ + v₂ * x₂⁻¹ + v₃ * x₃⁻¹) • R := by module
      rw [this, w0, w1, w2]; simp
    rw [this, e1, e2, e3]
    module

/-! ### From accepted conversations to equations -/

/-- Folding of the generators by the challenges so far, out of `k` levels. -/
def foldPre : Nat → List F → List G → List G
  | k + 1, x :: xs, gs => foldPre k xs (foldP (2 ^ k) x gs)
  | _, _, gs => gs

@[simp] theorem foldPre_nil (k : Nat) (gs : List G) : foldPre k ([] : List F) gs = gs := by
  cases k <;> rfl

theorem foldPre_append (k : Nat) (xs : List F) (x : F) (gs : List G) (h : xs.length < k) :
    foldPre k (xs ++ [x]) gs = foldP (2 ^ (k - 1 - xs.length)) x (foldPre k xs gs) := by
  induction xs generalizing k gs with
  | nil =>
    obtain ⟨k, rfl⟩ : ∃ j, k = j + 1 := ⟨k - 1, by simp at h; omega⟩
    simp [foldPre]
  | cons y xs ih =>
    obtain ⟨k, rfl⟩ : ∃ j, k = j + 1 := ⟨k - 1, by simp at h; omega⟩
    simp only [List.length_cons] at h
    simp only [List.cons_append, foldPre, List.length_cons]
    rw [ih k _ (by omega)]
    congr 2
    omega

theorem foldPre_all (xs : List F) (gs : List G) : foldPre xs.length xs gs = foldAll xs gs := by
  induction xs generalizing gs with
  | nil => rfl
  | cons x xs ih => simp only [List.length_cons, foldPre, foldAll, ih]

/-- generators that carry the statement -/
def hat (Fg : G) (gs : List G) (bs : List F) : List G := List.zipWith (fun g b => g + b • Fg) gs bs

theorem mexp_hat (Fg : G) (a : List F) (gs : List G) (bs : List F) (h : gs.length = bs.length) :
    mexp a (hat Fg gs bs) = mexp a gs + dot a bs • Fg := by
  induction a generalizing gs bs with
  | nil => simp
  | cons x a ih =>
    match gs, bs, h with
    | [], [], _ => simp [hat]
    | g :: gs, b :: bs, h =>
      have := ih gs bs (by simpa using h)
      simp only [hat] at this
      simp only [hat, List.zipWith_cons_cons, mexp_cons, dot_cons, this]
      module

variable [DecidableEq F] [DecidableEq G]

theorem linAccepted_eq {base : G} {gs : List G} {bs : List F} {eq : F} {off : Option (List F)} {C Fg : G}
    {Ls Rs : List G} {xs : List F} {S : G} {x a r : F}
    (h : LinAccepted base gs bs eq off C Fg Ls Rs xs S x a r) (hn1 : 1 ≤ gs.length) (hn2 : gs.length ≤ 2 ^ 63)
    (hb : bs.length = gs.length) (ho : ∀ o, off = some o → o.length = gs.length) :
    xs.length = log2roundUp gs.length ∧ 0 ∉ xs ∧ x ≠ 0 ∧
    S + x • (C + eq • Fg - mexp (off.getD []) gs + mexp xs Ls + mexp (xs.map (·⁻¹)) Rs) =
      r • base + a • mexp [(1 : F)] (foldAll xs (hat Fg gs bs)) := by
  obtain ⟨E, tag, st, st', hE, hF, hxs, hx, hv⟩ := h
  by_cases hL : Ls.length = log2roundUp gs.length ∧ Rs.length = log2roundUp gs.length
  · by_cases hz : 0 ∈ xs ∨ x = 0
    · rw [verifyLinear_zero E _ bs gs _ eq st off hn1 hn2 hb (by rw [hxs, hx]; exact hz)] at hv; cases hv
    · push Not at hz
      obtain ⟨b, h1, h2⟩ := verifyLinear_eq E ⟨tag, C, Ls, Rs, S, a, r⟩ bs gs _ eq st off hn1 hn2 hb rfl ho hL.1 hL.2
        (by rw [hxs]; exact hz.1) (by rw [hx]; exact hz.2)
      rw [h1] at hv
      have hbt : b = true := congrArg Prod.fst (Res.ok.inj hv)
      have heq := h2.1 hbt
      have hxl : xs.length = log2roundUp gs.length := by
        rw [← hxs]
        simp only [deriveLin, length_foldChallenges, hL.1, hL.2, min_self]
      refine ⟨hxl, hz.1, hz.2, ?_⟩
      have hhl : (hat Fg gs bs).length = gs.length := by simp [hat, hb]
      have hle : gs.length ≤ 2 ^ xs.length := by
        rw [hxl]; exact (level_log hn1 hn2).le
      rw [foldAll_singleton _ _ (by omega) (by omega), mexp_cons, mexp_nil_left, add_zero, one_smul,
        foldedSum_eq _ _ (by omega), mexp_hat _ _ _ _ hb.symm]
      unfold LinEq at heq
      rw [hF, hxs, hx, hE, foldedSum_eq _ _ (by omega), foldedSum_eq _ _ (by omega), ← dot_eq_mexp] at heq
      simp only at heq
      generalize dot (spL xs) bs = u at heq ⊢
      generalize mexp (spL xs) gs = v at heq ⊢
      have e0 : (offList off) = off.getD [] := rfl
      rw [e0] at heq
      generalize mexp (off.getD []) gs = w at heq ⊢
      have e2 : a • (v + u • Fg) = (a * u) • Fg + (a • v + x • w) - x • w := by module
      rw [e2, ← add_sub_assoc, ← add_assoc, ← heq]
      module
  · rw [verifyLinear_len E _ bs gs _ eq st off (by tauto)] at hv; cases hv

theorem linTree_good {base : G} {gs : List G} {bs : List F} {eq : F} {off : Option (List F)} {C Fg : G}
    (hn1 : 1 ≤ gs.length) (hn2 : gs.length ≤ 2 ^ 63)
    (hb : bs.length = gs.length) (ho : ∀ o, off = some o → o.length = gs.length) (t : LinTree F G) :
    ∀ (Ls Rs : List G) (xs : List F), Ls.length = xs.length → Rs.length = xs.length →
      t.Accepted base gs bs eq off C Fg Ls Rs xs →
      ∃ m, log2roundUp gs.length = xs.length + m ∧ 0 ∉ xs ∧
        LinGood base t m (C + eq • Fg - mexp (off.getD []) gs + mexp xs Ls + mexp (xs.map (·⁻¹)) Rs)
          (foldPre (log2roundUp gs.length) xs (hat Fg gs bs)) := by
  induction t with
  | leaf S x₁ a₁ r₁ x₂ a₂ r₂ =>
    rintro Ls Rs xs hL hR ⟨hx, h1, h2⟩
    obtain ⟨e0, z, -, e1⟩ := linAccepted_eq h1 hn1 hn2 hb ho
    obtain ⟨-, -, -, e2⟩ := linAccepted_eq h2 hn1 hn2 hb ho
    refine ⟨0, e0.symm, z, rfl, hx, ?_, ?_⟩
    · rw [← e0, foldPre_all]; exact e1
    · rw [← e0, foldPre_all]; exact e2
  | node L R x₁ x₂ x₃ t₁ t₂ t₃ ih₁ ih₂ ih₃ =>
    rintro Ls Rs xs hL hR ⟨h12, h13, h23, h1, h2, h3⟩
    obtain ⟨m, k1, z1, g1⟩ := ih₁ _ _ _ (by simp [hL]) (by simp [hR]) h1
    obtain ⟨m2, k2, z2, g2⟩ := ih₂ _ _ _ (by simp [hL]) (by simp [hR]) h2
    obtain ⟨m3, k3, z3, g3⟩ := ih₃ _ _ _ (by simp [hL]) (by simp [hR]) h3
    simp only [List.length_append, List.length_singleton] at k1 k2 k3
    obtain rfl : m2 = m := by omega
    obtain rfl : m3 = m2 := by omega
    have hk : log2roundUp gs.length - 1 - xs.length = m3 := by omega
    refine ⟨m3 + 1, by omega, fun h => z1 (by simp [h]), m3, rfl, h12, h13, h23, ?_, ?_, ?_, ?_, ?_, ?_⟩
    · rintro rfl; simp at z1
    · rintro rfl; simp at z2
    · rintro rfl; simp at z3
    all_goals
      first
      | rw [foldPre_append _ _ _ _ (by omega), hk, List.map_append, mexp_append hL.symm,
          mexp_append (by simp [hR])] at g1
        convert g1 using 1
        simp
        module
      | rw [foldPre_append _ _ _ _ (by omega), hk, List.map_append, mexp_append hL.symm,
          mexp_append (by simp [hR])] at g2
        convert g2 using 1
        simp
        module
      | rw [foldPre_append _ _ _ _ (by omega), hk, List.map_append, mexp_append hL.symm,
          mexp_append (by simp [hR])] at g3
        convert g3 using 1
        simp
        module


/-! ### Accepting conversations exist for all challenges -/

omit [DecidableEq F] [DecidableEq G] in
theorem progEnv_challenges (base Fg : G) (ys : List F) (Ls Rs : List G) (xs : List F) (n s : Nat)
    (h1 : Ls.length = xs.length) (h2 : Rs.length = xs.length) (hs : 1 ≤ s)
    (h3 : ∀ i, i < xs.length → ys.getD (s - 1 + i) 0 = xs.getD i 0) :
    foldChallenges (progEnv base Fg ys) n (show (progEnv base Fg ys).St from s) Ls Rs =
      (xs, (show (progEnv base Fg ys).St from (s + xs.length : Nat))) := by
  induction xs generalizing Ls Rs n s with
  | nil =>
    obtain rfl : Ls = [] := List.length_eq_zero_iff.1 h1
    rfl
  | cons x xs ih =>
    match Ls, Rs, h1, h2 with
    | L :: Ls, R :: Rs, h1, h2 =>
      have e := ih Ls Rs (2 ^ Ls.length) (s + 1) (by simpa using h1) (by simpa using h2) (by omega) (by
        intro i hi
        have := h3 (i + 1) (by simpa using hi)
        rw [show s + 1 - 1 + i = s - 1 + (i + 1) by omega, this]
        simp)
      have hx : ys.getD (s - 1) 0 = x := by simpa using h3 0 (by simp)
      have e1 : (progEnv base Fg ys).scalarReduce (List.replicate s 0) = x := by
        show ys.getD ((List.replicate s (0 : UInt8)).length - 1) 0 = x
        rw [List.length_replicate, hx]
      show ((progEnv base Fg ys).scalarReduce (List.replicate s 0) ::
        (foldChallenges (progEnv base Fg ys) (2 ^ Ls.length) (show (progEnv base Fg ys).St from (s + 1 : Nat)) Ls Rs).1,
        (foldChallenges (progEnv base Fg ys) (2 ^ Ls.length) (show (progEnv base Fg ys).St from (s + 1 : Nat)) Ls Rs).2) = _
      rw [e, e1]
      refine Prod.ext rfl ?_
      show (s + 1 + xs.length : Nat) = s + (x :: xs).length
      simp; omega

theorem linAccepted_of {base : G} {gs : List G} {bs : List F} {eq : F} {off : Option (List F)} {C Fg : G}
    {Ls Rs : List G} {xs : List F} {S : G} {x a r : F} (hn1 : 1 ≤ gs.length) (hn2 : gs.length ≤ 2 ^ 63)
    (hb : bs.length = gs.length) (ho : ∀ o, off = some o → o.length = gs.length)
    (hxs : xs.length = log2roundUp gs.length) (hL : Ls.length = xs.length) (hR : Rs.length = xs.length)
    (hz : 0 ∉ xs) (hx : x ≠ 0)
    (he : S + x • (C + eq • Fg + mexp xs Ls + mexp (xs.map (·⁻¹)) Rs) =
      r • base + (a * foldedSum xs bs) • Fg + (a • foldedSum xs gs + x • mexp (off.getD []) gs)) :
    LinAccepted base gs bs eq off C Fg Ls Rs xs S x a r := by
  have hc := progEnv_challenges base Fg (xs ++ [x]) Ls Rs xs gs.length 1 hL hR le_rfl (by
    intro i hi
    simp only [Nat.sub_self, Nat.zero_add, List.getD_eq_getElem?_getD]
    rw [List.getElem?_append_left hi])
  have hd : deriveLin (progEnv base Fg (xs ++ [x])) ⟨[], C, Ls, Rs, S, a, r⟩ gs.length (show (progEnv base Fg (xs ++ [x])).St from (0 : Nat)) =
      ⟨Fg, xs, x, (show (progEnv base Fg (xs ++ [x])).St from (1 + xs.length + 1 : Nat))⟩ := by
    show (Derived.mk Fg (foldChallenges (progEnv base Fg (xs ++ [x])) gs.length (show (progEnv base Fg (xs ++ [x])).St from (1 : Nat)) Ls Rs).1
      ((xs ++ [x]).getD ((List.replicate (show Nat from (foldChallenges (progEnv base Fg (xs ++ [x])) gs.length (show (progEnv base Fg (xs ++ [x])).St from (1 : Nat)) Ls Rs).2) (0 : UInt8)).length - 1) 0)
      (show (progEnv base Fg (xs ++ [x])).St from ((show Nat from (foldChallenges (progEnv base Fg (xs ++ [x])) gs.length (show (progEnv base Fg (xs ++ [x])).St from (1 : Nat)) Ls Rs).2) + 1 : Nat))) = _
    rw [hc]
    simp
  obtain ⟨b, h1, h2⟩ := verifyLinear_eq (progEnv base Fg (xs ++ [x])) ⟨[], C, Ls, Rs, S, a, r⟩ bs gs gs.length eq
    (show (progEnv base Fg (xs ++ [x])).St from (0 : Nat)) off hn1 hn2 hb rfl ho (by simp [hL, hxs]) (by simp [hR, hxs])
    (by rw [hd]; exact hz) (by rw [hd]; exact hx)
  have hbt : b = true := h2.2 (by rw [hd]; exact he)
  rw [hbt] at h1
  exact ⟨progEnv base Fg (xs ++ [x]), [], (show (progEnv base Fg (xs ++ [x])).St from (0 : Nat)), _, rfl,
    by rw [hd], by rw [hd], by rw [hd], h1⟩

end
end Verif
