/-
Property C104: a prover that convinces the verifier often enough can be made to open its commitment.
-/
import Verif.Lemmas.Convince
import Verif.Lemmas.ConvinceHonest
import Verif.Lemmas.ConvinceQuad
import Verif.Props.Soundness
import Verif.Props.QuadSound
import Verif.Props.NormCount
import Mathlib.Algebra.Order.Ring.Pow
import Mathlib.Algebra.GroupWithZero.Units.Equiv

namespace Verif.Props
open Verif Verif.Spec

section
variable {F G Ω : Type} [Field F] [AddCommGroup G] [Module F G] [DecidableEq F] [DecidableEq G] [Finite F] [Finite Ω]

/-- **C104, linear proofs.** The challenges are made from coins in such a way that each scalar comes from at most `μ` coins.  Let a
prover convince the verifier of a linear statement about `n` generators for more than a fraction `(2k+1)·μ/N` of the `N^(k+1)`
sequences of coins, where `k = ⌈log2 n⌉`.  Then running it again and again from points in the middle gives a tree of accepted
conversations, and the extractor computes from it an opening of the commitment, up to a multiple of `F`. -/
theorem C104_linear (base : G) (gs : List G) (bs : List F) (eq : F) (off : Option (List F)) (C Fg : G)
    (hn1 : 1 ≤ gs.length) (hn2 : gs.length ≤ 2 ^ 63) (hb : bs.length = gs.length)
    (ho : ∀ o, off = some o → o.length = gs.length)
    (chal : Ω → F) (μ : ℕ) (hμ : ∀ c, {o | chal o = c}.ncard ≤ μ) (p : LinProver F G) (k : ℕ)
    (hp : (2 * k + 1) * μ * Nat.card Ω ^ k <
      {w : (Fin k → Ω) × Ω | p.Convinces base gs bs eq off C Fg (challenges chal w.1) (chal w.2)}.ncard) :
    ∃ t : LinTree F G, t.PlayedBy p [] ∧ t.Accepted base gs bs eq off C Fg [] [] [] ∧
      (t.extract.2.take gs.length).length = gs.length ∧
      C + eq • Fg = t.extract.1 • base + mexp (t.extract.2.take gs.length) gs + mexp (off.getD []) gs
        + dot (t.extract.2.take gs.length) bs • Fg := by
  have h : HasTree 3 2 (p.Convinces base gs bs eq off C Fg) k [] := by
    by_contra hc
    have := count_le chal μ hμ 3 2 _ k [] hc
    simp only [List.nil_append, Nat.reduceSub] at this
    omega
  obtain ⟨t, h1, h2⟩ := linTree_of base gs bs eq off C Fg p k [] h
  exact ⟨t, h1, h2, C13_linear_extract base gs bs eq off C Fg t hn1 hn2 hb ho h2⟩

/-- **C104, quadratic proofs.** The same for quadratic statements about `2^k` generators of each kind, for more than a fraction
`(3k+4)·μ/N`. -/
theorem C104_quadratic (base : G) (gs hs : List G) (eq : F) (uoff voff : Option (List F)) (C Fg : G)
    (k : ℕ) (hk : k ≤ 63) (hg : gs.length = 2 ^ k) (hh : hs.length = 2 ^ k)
    (hu : ∀ o, uoff = some o → o.length = 2 ^ k) (hv : ∀ o, voff = some o → o.length = 2 ^ k)
    (chal : Ω → F) (μ : ℕ) (hμ : ∀ c, {o | chal o = c}.ncard ≤ μ) (p : QuadProver F G)
    (hp : (3 * k + 4) * μ * Nat.card Ω ^ k <
      {w : (Fin k → Ω) × Ω | p.Convinces base gs hs eq uoff voff C Fg (challenges chal w.1) (chal w.2)}.ncard) :
    ∃ t : QuadTree F G, t.PlayedBy p [] ∧ t.Accepted base gs hs eq uoff voff C Fg [] [] [] ∧
      let a := (List.range (2 ^ k)).map (t.extract k).2.2.1
      let b := (List.range (2 ^ k)).map (t.extract k).2.2.2
      let c := (t.extract k).2.1
      C + eq • Fg = (t.extract k).1 • base + mexp a gs + mexp (uoff.getD []) gs + mexp b hs + mexp (voff.getD []) hs
        + c • Fg ∧
      (∀ ρ ∈ t.relations k, ρ.1 • base + ρ.2.1 • Fg + mexp ((List.range (2 ^ k)).map ρ.2.2.1) gs
        + mexp ((List.range (2 ^ k)).map ρ.2.2.2) hs = 0) ∧
      ((∀ ρ ∈ t.relations k, ρ.Trivial (2 ^ k)) → c = dot a b) := by
  have h : HasTree 4 5 (p.Convinces base gs hs eq uoff voff C Fg) k [] := by
    by_contra hc
    have := count_le chal μ hμ 4 5 _ k [] hc
    simp only [List.nil_append, Nat.reduceSub] at this
    omega
  obtain ⟨t, h1, h2⟩ := quadTree_of base gs hs eq uoff voff C Fg p k [] h
  exact ⟨t, h1, h2, C57_quadratic_extract base gs hs eq uoff voff C Fg t k hk hg hh hu hv h2⟩

/-- Most sequences of challenges have no zero. -/
theorem many_nonzero (k : ℕ) :
    (Nat.card F - 1) ^ (k + 1) ≤ {w : (Fin k → F) × F | (∀ i, w.1 i ≠ 0) ∧ w.2 ≠ 0}.ncard := by
  have h1 : Nat.card Fˣ = Nat.card F - 1 := by
    have := Nat.card_congr (unitsEquivNeZero (G₀ := F))
    rw [this]
    classical
    have := Fintype.ofFinite F
    rw [Nat.card_eq_fintype_card, Nat.card_eq_fintype_card]
    simp [Fintype.card_subtype_compl]
  have h2 := Nat.card_le_card_of_injective
    (fun u : (Fin k → Fˣ) × Fˣ => (⟨(fun i => (u.1 i : F), (u.2 : F)), fun i => (u.1 i).ne_zero, u.2.ne_zero⟩ :
      {w : (Fin k → F) × F | (∀ i, w.1 i ≠ 0) ∧ w.2 ≠ 0})) (by
    rintro ⟨a, b⟩ ⟨a', b'⟩ h
    simp only [Subtype.mk.injEq, Prod.mk.injEq] at h
    refine Prod.ext (funext fun i => Units.ext (congrFun h.1 i)) (Units.ext h.2))
  rw [Nat.card_coe_set_eq, Nat.card_prod, Nat.card_fun, Nat.card_fin, h1, ← pow_succ] at h2
  exact h2

/-- `c q^k < (q-1)^(k+1)` if `c + k + 1 < q`. -/
theorem most (q k c : ℕ) (h : c + k + 1 < q) : c * q ^ k < (q - 1) ^ (k + 1) := by
  obtain ⟨t, rfl⟩ : ∃ t, q = t + 1 := ⟨q - 1, by omega⟩
  rw [Nat.add_sub_cancel]
  have key : ∀ k, (t + 1) ^ (k + 1) ≤ t ^ (k + 1) + (k + 1) * (t + 1) ^ k := by
    intro k
    induction k with
    | zero => simp
    | succ k ih =>
      have e : t ^ (k + 1) ≤ (t + 1) ^ (k + 1) := Nat.pow_le_pow_left (by omega) _
      calc (t + 1) ^ (k + 1 + 1) = (t + 1) ^ (k + 1) * (t + 1) := pow_succ _ _
        _ ≤ (t ^ (k + 1) + (k + 1) * (t + 1) ^ k) * (t + 1) := Nat.mul_le_mul_right _ ih
        _ = t ^ (k + 1 + 1) + t ^ (k + 1) + (k + 1) * (t + 1) ^ (k + 1) := by ring
        _ ≤ t ^ (k + 1 + 1) + (t + 1) ^ (k + 1) + (k + 1) * (t + 1) ^ (k + 1) := by omega
        _ = _ := by ring
  have h1 := key k
  have h2 : (c + (k + 1)) * (t + 1) ^ k < (t + 1) ^ (k + 1) := by
    rw [pow_succ, Nat.mul_comm ((t + 1) ^ k)]
    exact Nat.mul_lt_mul_of_pos_right (by omega) (by positivity)
  rw [Nat.add_mul] at h2
  omega

/-- **C104, linear proofs, exactly.** Let the challenges be uniform scalars of a field of `q` elements, `k = ⌈log2 n⌉` and
`q > 3k + 2`.  There is a prover that convinces the verifier for more than a fraction `(2k+1)/q` of the challenges if and only if
the commitment has an opening up to a multiple of `F`; and then there is a prover that convinces it whenever no challenge is
zero. -/
theorem C104_linear_iff (base : G) (gs : List G) (bs : List F) (eq : F) (off : Option (List F)) (C Fg : G)
    (hn1 : 1 ≤ gs.length) (hn2 : gs.length ≤ 2 ^ 63) (hb : bs.length = gs.length)
    (ho : ∀ o, off = some o → o.length = gs.length) (k : ℕ) (hk : k = log2roundUp gs.length)
    (hq : 3 * k + 2 < Nat.card F) :
    ((∃ p : LinProver F G, (2 * k + 1) * Nat.card F ^ k <
        {w : (Fin k → F) × F | p.Convinces base gs bs eq off C Fg (challenges id w.1) w.2}.ncard) ↔
      ∃ (r : F) (a : List F), a.length = gs.length ∧
        C + eq • Fg = r • base + mexp a gs + mexp (off.getD []) gs + dot a bs • Fg) ∧
    (∀ (r : F) (a : List F), a.length = gs.length →
        C + eq • Fg = r • base + mexp a gs + mexp (off.getD []) gs + dot a bs • Fg →
      ∃ p : LinProver F G, ∀ (xs : List F) (x : F), xs.length = k → 0 ∉ xs → x ≠ 0 →
        p.Convinces base gs bs eq off C Fg xs x) := by
  have hon : ∀ (r : F) (a : List F), a.length = gs.length →
        C + eq • Fg = r • base + mexp a gs + mexp (off.getD []) gs + dot a bs • Fg →
      ∃ p : LinProver F G, ∀ (xs : List F) (x : F), xs.length = k → 0 ∉ xs → x ≠ 0 →
        p.Convinces base gs bs eq off C Fg xs x := by
    intro r a ha h
    exact ⟨_, fun xs x hl hz hx => honestLin_convinces hn1 hn2 hb ho r a ha h xs x (by rw [hl, hk]) hz hx⟩
  refine ⟨⟨?_, ?_⟩, hon⟩
  · rintro ⟨p, hp⟩
    obtain ⟨t, -, -, h1, h2⟩ := C104_linear base gs bs eq off C Fg hn1 hn2 hb ho (id : F → F) 1 (by intro c; simp) p k
      (by rw [Nat.mul_one]; exact hp)
    exact ⟨_, _, h1, h2⟩
  · rintro ⟨r, a, ha, h⟩
    obtain ⟨p, hp⟩ := hon r a ha h
    refine ⟨p, lt_of_lt_of_le (most _ k (2 * k + 1) (by omega)) ((many_nonzero k).trans (Set.ncard_le_ncard ?_ (Set.toFinite _)))⟩
    rintro w ⟨h1, h2⟩
    exact hp _ _ (by simp [challenges]) (by simpa [challenges, List.mem_ofFn] using h1) h2

/-- **C104, quadratic proofs, honest provers.** For every opening with which the claim (up to the generator `F`) holds there is
a prover that convinces the verifier whenever no folding challenge is zero. -/
theorem C104_quadratic_honest (base : G) (gs hs : List G) (eq : F) (uoff voff : Option (List F)) (C Fg : G)
    (k : ℕ) (hk : k ≤ 63) (hg : gs.length = 2 ^ k) (hh : hs.length = 2 ^ k)
    (hu : ∀ o, uoff = some o → o.length = 2 ^ k) (hv : ∀ o, voff = some o → o.length = 2 ^ k)
    (hq : 4 * k + 5 < Nat.card F) (r : F) (a b : List F) (ha : a.length = 2 ^ k) (hb : b.length = 2 ^ k)
    (h : C + eq • Fg = r • base + mexp a gs + mexp (uoff.getD []) gs + mexp b hs + mexp (voff.getD []) hs
      + dot a b • Fg) :
    ∃ p : QuadProver F G, (∀ (xs : List F) (x : F), xs.length = k → 0 ∉ xs →
        p.Convinces base gs hs eq uoff voff C Fg xs x) ∧
      (3 * k + 4) * Nat.card F ^ k <
        {w : (Fin k → F) × F | p.Convinces base gs hs eq uoff voff C Fg (challenges id w.1) w.2}.ncard := by
  refine ⟨_, fun xs x hl hz => honestQuad_convinces hk hg hh hu hv r a b ha hb h xs x hl hz,
    lt_of_lt_of_le (most _ k (3 * k + 4) (by omega)) ((many_nonzero k).trans (Set.ncard_le_ncard ?_ (Set.toFinite _)))⟩
  rintro w ⟨h1, h2⟩
  exact honestQuad_convinces hk hg hh hu hv r a b ha hb h _ _ (by simp [challenges])
    (by simpa [challenges, List.mem_ofFn] using h1)

variable [Finite G] {Ψ : Type} [Finite Ψ]

/-- **C104, linear proofs, with `F` from coins.** The prover commits to `C`; then the generator `F` is made from coins, each value
from at most `ν` of them; the rest of the prover may depend on `F` (it is `p F`).  If it convinces the verifier for more than a
fraction `ν/M + (2k+1)·μ/N` of all coins (`M` coins for `F`), then there are two different values of `F` for which running it gives
trees of accepted conversations.  From these an opening `r, a` of `C` with `<a,b> = eq` is computed or else a relation between the
generators `base, G_i, F₁, F₂` in which the coefficient of `F₁` is not zero. -/
theorem C104_linear_claim (base : G) (gs : List G) (bs : List F) (eq : F) (off : Option (List F)) (C : G)
    (hn1 : 1 ≤ gs.length) (hn2 : gs.length ≤ 2 ^ 63) (hb : bs.length = gs.length)
    (ho : ∀ o, off = some o → o.length = gs.length)
    (chal : Ω → F) (μ : ℕ) (hμ : ∀ c, {o | chal o = c}.ncard ≤ μ) (gen : Ψ → G) (ν : ℕ)
    (hν : ∀ g, {o | gen o = g}.ncard ≤ ν) (p : G → LinProver F G) (k : ℕ)
    (hp : ν * Nat.card Ω ^ (k + 1) + Nat.card Ψ * ((2 * k + 1) * μ * Nat.card Ω ^ k) <
      {z : Ψ × (Fin k → Ω) × Ω | (p (gen z.1)).Convinces base gs bs eq off C (gen z.1) (challenges chal z.2.1)
        (chal z.2.2)}.ncard) :
    ∃ (F₁ F₂ : G) (t₁ t₂ : LinTree F G), F₁ ≠ F₂ ∧ t₁.PlayedBy (p F₁) [] ∧ t₂.PlayedBy (p F₂) [] ∧
      t₁.Accepted base gs bs eq off C F₁ [] [] [] ∧ t₂.Accepted base gs bs eq off C F₂ [] [] [] ∧
      let a := t₁.extract.2.take gs.length
      let a' := t₂.extract.2.take gs.length
      a.length = gs.length ∧ a'.length = gs.length ∧
      (t₁.extract.1 - t₂.extract.1) • base + mexp (List.zipWith (· - ·) a a') gs + (dot a bs - eq) • F₁ +
        (eq - dot a' bs) • F₂ = 0 ∧
      (dot a bs = eq → C = t₁.extract.1 • base + mexp a gs + mexp (off.getD []) gs) := by
  have h : ∃ x : Fin 2 → G, Function.Injective x ∧
      ∀ i, HasTree 3 2 ((p (x i)).Convinces base gs bs eq off C (x i)) k [] := by
    by_contra hc
    have h1 := few_coins gen ν hν 2 (fun g => HasTree 3 2 ((p g).Convinces base gs bs eq off C g) k []) hc
    have h2 := count_first (W := (Fin k → Ω) × Ω)
      (fun o w => (p (gen o)).Convinces base gs bs eq off C (gen o) (challenges chal w.1) (chal w.2))
      (fun o => HasTree 3 2 ((p (gen o)).Convinces base gs bs eq off C (gen o)) k []) _ ((2 * k + 1) * μ * Nat.card Ω ^ k) h1
      (by
        intro o hb
        have := count_le chal μ hμ 3 2 _ k [] hb
        simpa only [List.nil_append, Nat.reduceSub] using this)
    have h3 : Nat.card ((Fin k → Ω) × Ω) = Nat.card Ω ^ (k + 1) := by
      rw [Nat.card_prod, Nat.card_fun, Nat.card_fin, pow_succ]
    simp only [h3, Nat.reduceSub, Nat.one_mul] at h2
    omega
  obtain ⟨x, hx, h⟩ := h
  obtain ⟨t₁, a1, a2⟩ := linTree_of base gs bs eq off C (x 0) (p (x 0)) k [] (h 0)
  obtain ⟨t₂, b1, b2⟩ := linTree_of base gs bs eq off C (x 1) (p (x 1)) k [] (h 1)
  obtain ⟨c1, -, c2, c3⟩ := C13_linear_sound base gs bs eq off C (x 0) (x 1) t₁ t₂ hn1 hn2 hb ho a2 b2
  obtain ⟨d1, -⟩ := C13_linear_extract base gs bs eq off C (x 1) t₂ hn1 hn2 hb ho b2
  exact ⟨x 0, x 1, t₁, t₂, hx.ne (by decide), a1, b1, a2, b2, c1, d1, c2, fun e => (c3 (sub_eq_zero.2 e)).1⟩

/-- **C104, quadratic proofs, with `F` from coins.** As for linear proofs, for `2^k` generators of each kind and more than a
fraction `ν/M + (3k+4)·μ/N` of all coins: vectors `a`, `b` and a list of relations between the generators are computed; if all
these relations are trivial and the coefficient of `F₁` in the relation below is zero, then `a` and `b` open `C` and
`<a,b> = eq`. -/
theorem C104_quadratic_claim (base : G) (gs hs : List G) (eq : F) (uoff voff : Option (List F)) (C : G)
    (k : ℕ) (hk : k ≤ 63) (hg : gs.length = 2 ^ k) (hh : hs.length = 2 ^ k)
    (hu : ∀ o, uoff = some o → o.length = 2 ^ k) (hv : ∀ o, voff = some o → o.length = 2 ^ k)
    (chal : Ω → F) (μ : ℕ) (hμ : ∀ c, {o | chal o = c}.ncard ≤ μ) (gen : Ψ → G) (ν : ℕ)
    (hν : ∀ g, {o | gen o = g}.ncard ≤ ν) (p : G → QuadProver F G)
    (hp : ν * Nat.card Ω ^ (k + 1) + Nat.card Ψ * ((3 * k + 4) * μ * Nat.card Ω ^ k) <
      {z : Ψ × (Fin k → Ω) × Ω | (p (gen z.1)).Convinces base gs hs eq uoff voff C (gen z.1) (challenges chal z.2.1)
        (chal z.2.2)}.ncard) :
    ∃ (F₁ F₂ : G) (t₁ t₂ : QuadTree F G), F₁ ≠ F₂ ∧ t₁.PlayedBy (p F₁) [] ∧ t₂.PlayedBy (p F₂) [] ∧
      t₁.Accepted base gs hs eq uoff voff C F₁ [] [] [] ∧ t₂.Accepted base gs hs eq uoff voff C F₂ [] [] [] ∧
      let a := (List.range (2 ^ k)).map (t₁.extract k).2.2.1
      let b := (List.range (2 ^ k)).map (t₁.extract k).2.2.2
      let α := (List.range (2 ^ k)).map ((t₁.extract k).2.2.1 - (t₂.extract k).2.2.1)
      let β := (List.range (2 ^ k)).map ((t₁.extract k).2.2.2 - (t₂.extract k).2.2.2)
      (∀ ρ ∈ t₁.relations k, ρ.1 • base + ρ.2.1 • F₁ + mexp ((List.range (2 ^ k)).map ρ.2.2.1) gs
        + mexp ((List.range (2 ^ k)).map ρ.2.2.2) hs = 0) ∧
      ((t₁.extract k).1 - (t₂.extract k).1) • base + mexp α gs + mexp β hs + ((t₁.extract k).2.1 - eq) • F₁ +
        (eq - (t₂.extract k).2.1) • F₂ = 0 ∧
      ((∀ ρ ∈ t₁.relations k, ρ.Trivial (2 ^ k)) → (t₁.extract k).2.1 - eq = 0 →
        C = (t₁.extract k).1 • base + mexp a gs + mexp (uoff.getD []) gs + mexp b hs + mexp (voff.getD []) hs ∧
        dot a b = eq) := by
  have h : ∃ x : Fin 2 → G, Function.Injective x ∧
      ∀ i, HasTree 4 5 ((p (x i)).Convinces base gs hs eq uoff voff C (x i)) k [] := by
    by_contra hc
    have h1 := few_coins gen ν hν 2 (fun g => HasTree 4 5 ((p g).Convinces base gs hs eq uoff voff C g) k []) hc
    have h2 := count_first (W := (Fin k → Ω) × Ω)
      (fun o w => (p (gen o)).Convinces base gs hs eq uoff voff C (gen o) (challenges chal w.1) (chal w.2))
      (fun o => HasTree 4 5 ((p (gen o)).Convinces base gs hs eq uoff voff C (gen o)) k []) _
      ((3 * k + 4) * μ * Nat.card Ω ^ k) h1
      (by
        intro o hb
        have := count_le chal μ hμ 4 5 _ k [] hb
        simpa only [List.nil_append, Nat.reduceSub] using this)
    have h3 : Nat.card ((Fin k → Ω) × Ω) = Nat.card Ω ^ (k + 1) := by
      rw [Nat.card_prod, Nat.card_fun, Nat.card_fin, pow_succ]
    simp only [h3, Nat.reduceSub, Nat.one_mul] at h2
    omega
  obtain ⟨x, hx, h⟩ := h
  obtain ⟨t₁, a1, a2⟩ := quadTree_of base gs hs eq uoff voff C (x 0) (p (x 0)) k [] (h 0)
  obtain ⟨t₂, b1, b2⟩ := quadTree_of base gs hs eq uoff voff C (x 1) (p (x 1)) k [] (h 1)
  obtain ⟨c2, c3⟩ := C57_quadratic_sound base gs hs eq uoff voff C (x 0) (x 1) t₁ t₂ k hk hg hh hu hv a2 b2
  obtain ⟨-, d1, -⟩ := C57_quadratic_extract base gs hs eq uoff voff C (x 0) t₁ k hk hg hh hu hv a2
  exact ⟨x 0, x 1, t₁, t₂, hx.ne (by decide), a1, b1, a2, b2, d1, c2, c3⟩

end

/-! ### The library's challenges -/

/-- Each scalar comes from at most `2^260` strings of 64 bytes, of `2^512`. -/
theorem C104_bytes (c : ZMod Regev.P) : {b : Fin 64 → Fin 256 | scalarOf b = c}.ncard ≤ 2 ^ 260 := by
  have hlt : ∀ b : Fin 64 → Fin 256, Sc.leVal (bufBytes b) / Regev.P < 256 ^ 64 / Regev.P + 1 := by
    intro b
    have h := Sc.leVal_lt (bufBytes b)
    rw [show (bufBytes b).length = 64 by simp [bufBytes]] at h
    exact Nat.lt_succ_of_le (Nat.div_le_div_right h.le)
  have hM : 256 ^ 64 / Regev.P + 1 ≤ 2 ^ 260 := by decide +kernel
  obtain ⟨M, h2⟩ : ∃ M, M = 256 ^ 64 / Regev.P + 1 := ⟨_, rfl⟩
  rw [← h2] at hlt hM
  have := Set.ncard_le_ncard_of_injOn (s := {b : Fin 64 → Fin 256 | scalarOf b = c}) (t := (Set.univ : Set (Fin M)))
    (fun b => ⟨_, hlt b⟩) (fun b _ => Set.mem_univ _) (by
      intro a ha b hb h
      have ha : scalarOf a = c := ha
      have hb : scalarOf b = c := hb
      have h1 : scalarOf a = scalarOf b := ha.trans hb.symm
      have h3 : Sc.leVal (bufBytes a) / Regev.P = Sc.leVal (bufBytes b) / Regev.P := by simpa using h
      apply bufBytes_inj
      unfold scalarOf at h1
      rw [ZMod.natCast_eq_natCast_iff'] at h1
      rw [← Nat.div_add_mod (Sc.leVal (bufBytes a)) Regev.P, h1, h3, Nat.div_add_mod]) (Set.toFinite _)
  rw [Set.ncard_univ, Nat.card_fin] at this
  exact this.trans hM

section
variable {G : Type} [AddCommGroup G] [Module (ZMod Regev.P) G] [DecidableEq G]

/-- **C104, the library's challenges.** The library makes each challenge from 64 bytes.  A prover that convinces the verifier of a
linear statement for more than a fraction `(2k+1)/2^252` of these bytes, or of a quadratic statement of length `2^k` for more than
a fraction `(3k+4)/2^252`, yields a tree of accepted conversations as above. -/
theorem C104_library (base : G) (gs hs : List G) (bs : List (ZMod Regev.P)) (eq : ZMod Regev.P)
    (off voff : Option (List (ZMod Regev.P))) (C Fg : G) (k : ℕ) :
    (∀ p : LinProver (ZMod Regev.P) G,
      (2 * k + 1) * Nat.card ((Fin k → Fin 64 → Fin 256) × (Fin 64 → Fin 256)) <
        {w : (Fin k → Fin 64 → Fin 256) × (Fin 64 → Fin 256) |
          p.Convinces base gs bs eq off C Fg (challenges scalarOf w.1) (scalarOf w.2)}.ncard * 2 ^ 252 →
      ∃ t : LinTree (ZMod Regev.P) G, t.PlayedBy p [] ∧ t.Accepted base gs bs eq off C Fg [] [] []) ∧
    (∀ p : QuadProver (ZMod Regev.P) G,
      (3 * k + 4) * Nat.card ((Fin k → Fin 64 → Fin 256) × (Fin 64 → Fin 256)) <
        {w : (Fin k → Fin 64 → Fin 256) × (Fin 64 → Fin 256) |
          p.Convinces base gs hs eq off voff C Fg (challenges scalarOf w.1) (scalarOf w.2)}.ncard * 2 ^ 252 →
      ∃ t : QuadTree (ZMod Regev.P) G, t.PlayedBy p [] ∧ t.Accepted base gs hs eq off voff C Fg [] [] []) := by
  have key : ∀ (d e : ℕ) (P : List (ZMod Regev.P) → ZMod Regev.P → Prop),
      ((d - 1) * k + (e - 1)) * Nat.card ((Fin k → Fin 64 → Fin 256) × (Fin 64 → Fin 256)) <
        {w : (Fin k → Fin 64 → Fin 256) × (Fin 64 → Fin 256) |
          P (challenges scalarOf w.1) (scalarOf w.2)}.ncard * 2 ^ 252 → HasTree d e P k [] := by
    intro d e P h
    by_contra hc
    have h1 := count_le scalarOf (2 ^ 260) C104_bytes d e P k [] hc
    simp only [List.nil_append] at h1
    have h2 : Nat.card ((Fin k → Fin 64 → Fin 256) × (Fin 64 → Fin 256)) =
        Nat.card (Fin 64 → Fin 256) ^ k * (2 ^ 260 * 2 ^ 252) := by
      rw [Nat.card_prod, Nat.card_fun, Nat.card_fin]
      congr 1
      rw [Nat.card_fun, Nat.card_fin, Nat.card_fin, show (256 : ℕ) = 2 ^ 8 by norm_num, ← pow_mul, ← pow_add]
    rw [h2] at h
    have h3 := Nat.mul_le_mul_right (2 ^ 252) h1
    have h4 : ((d - 1) * k + (e - 1)) * 2 ^ 260 * Nat.card (Fin 64 → Fin 256) ^ k * 2 ^ 252 =
        ((d - 1) * k + (e - 1)) * (Nat.card (Fin 64 → Fin 256) ^ k * (2 ^ 260 * 2 ^ 252)) := by ring
    rw [h4] at h3
    exact absurd (lt_of_lt_of_le h h3) (lt_irrefl _)
  exact ⟨fun p h => linTree_of base gs bs eq off C Fg p k [] (key 3 2 _ h),
    fun p h => quadTree_of base gs hs eq off voff C Fg p k [] (key 4 5 _ h)⟩

end

/-! ### The hypotheses can be met -/

private instance : Fact (Nat.Prime 11) := ⟨by norm_num⟩

/-- Scalars and points are the integers modulo 11; two generators `2, 3`, statement `(3, 4)`, witness `(1, 2)`, so `<a,b> = 11 = 0`;
`r = 5` and `C = 5 + 2 + 6 = 2`, whatever `F` is.  There is a prover that convinces often enough, and the theorem gives a tree. -/
example (Fg : ZMod 11) : ∃ p : LinProver (ZMod 11) (ZMod 11), ∃ t : LinTree (ZMod 11) (ZMod 11), t.PlayedBy p [] ∧
    t.Accepted (1 : ZMod 11) [2, 3] [3, 4] 0 none 2 Fg [] [] [] := by
  have hlog : (1 : ℕ) = log2roundUp ([2, 3] : List (ZMod 11)).length := (log2roundUp_two_pow (k := 1) (by norm_num)).symm
  obtain ⟨p, hp⟩ := (C104_linear_iff (1 : ZMod 11) [2, 3] [3, 4] (0 : ZMod 11) none 2 Fg (by simp) (by simp) (by simp) (by simp) 1
    hlog (by rw [Nat.card_zmod]; norm_num)).1.2 ⟨5, [1, 2], rfl, by
      have : (3 + 2 * 4 : ZMod 11) = 0 := by decide
      simp [mexp, dot, this]; decide⟩
  obtain ⟨t, h1, h2, -⟩ := C104_linear (1 : ZMod 11) [2, 3] [3, 4] (0 : ZMod 11) none 2 Fg (by simp) (by simp) (by simp) (by simp)
    (id : ZMod 11 → ZMod 11) 1 (by intro c; simp) p 1 (by rw [Nat.mul_one]; exact hp)
  exact ⟨p, t, h1, h2⟩

/-- The same when `F` comes from coins. -/
example : ∃ p : ZMod 11 → LinProver (ZMod 11) (ZMod 11),
    1 * Nat.card (ZMod 11) ^ (1 + 1) + Nat.card (ZMod 11) * ((2 * 1 + 1) * 1 * Nat.card (ZMod 11) ^ 1) <
      {z : ZMod 11 × (Fin 1 → ZMod 11) × ZMod 11 | (p (id z.1)).Convinces (1 : ZMod 11) [2, 3] [3, 4] 0 none 2 (id z.1)
        (challenges id z.2.1) (id z.2.2)}.ncard := by
  have hlog : (1 : ℕ) = log2roundUp ([2, 3] : List (ZMod 11)).length := (log2roundUp_two_pow (k := 1) (by norm_num)).symm
  have h : ∀ Fg : ZMod 11, ∃ p : LinProver (ZMod 11) (ZMod 11), ∀ (xs : List (ZMod 11)) (x : ZMod 11), xs.length = 1 → 0 ∉ xs →
      x ≠ 0 → p.Convinces (1 : ZMod 11) [2, 3] [3, 4] 0 none 2 Fg xs x := by
    intro Fg
    refine (C104_linear_iff (1 : ZMod 11) [2, 3] [3, 4] (0 : ZMod 11) none 2 Fg (by simp) (by simp) (by simp) (by simp) 1
      hlog (by rw [Nat.card_zmod]; norm_num)).2 5 [1, 2] rfl ?_
    have : (3 + 2 * 4 : ZMod 11) = 0 := by decide
    simp [mexp, dot, this]; decide
  choose p hp using h
  refine ⟨p, lt_of_lt_of_le (b := ((Set.univ : Set (ZMod 11)) ×ˢ
    {w : (Fin 1 → ZMod 11) × ZMod 11 | (∀ i, w.1 i ≠ 0) ∧ w.2 ≠ 0}).ncard) ?_ (Set.ncard_le_ncard ?_ (Set.toFinite _))⟩
  · rw [Set.ncard_prod, Set.ncard_univ]
    have := many_nonzero (F := ZMod 11) 1
    rw [Nat.card_zmod] at this ⊢
    omega
  · rintro ⟨Fg, w⟩ ⟨-, h1, h2⟩
    exact hp _ _ _ (by simp [challenges]) (by simpa [challenges, List.mem_ofFn, eq_comm] using h1) h2

/-- Quadratic statements: generators `2, 3` and `4, 5`, vectors `(1, 2)` and `(3, 4)`, `r = 5`, so `C = 5 + 2 + 6 + 12 + 20 = 1`. -/
example (Fg : ZMod 11) : ∃ p : QuadProver (ZMod 11) (ZMod 11), ∃ t : QuadTree (ZMod 11) (ZMod 11), t.PlayedBy p [] ∧
    t.Accepted (1 : ZMod 11) [2, 3] [4, 5] 0 none none 1 Fg [] [] [] := by
  obtain ⟨p, -, hp⟩ := C104_quadratic_honest (1 : ZMod 11) [2, 3] [4, 5] (0 : ZMod 11) none none 1 Fg 1 (by norm_num) (by simp)
    (by simp) (by simp) (by simp) (by rw [Nat.card_zmod]; norm_num) 5 [1, 2] [3, 4] rfl rfl (by
      have : (3 + 2 * 4 : ZMod 11) = 0 := by decide
      simp [mexp, dot, this]; decide)
  obtain ⟨t, h1, h2, -⟩ := C104_quadratic (1 : ZMod 11) [2, 3] [4, 5] (0 : ZMod 11) none none 1 Fg 1 (by norm_num) (by simp)
    (by simp) (by simp) (by simp) (id : ZMod 11 → ZMod 11) 1 (by intro c; simp) p (by rw [Nat.mul_one]; exact hp)
  exact ⟨p, t, h1, h2⟩

end Verif.Props
