import Verif.Spec.Smallness
import Verif.Lemmas.RegevTotal

namespace Verif
open Spec Regev
open scoped BigOperators

/-! ### Counting -/

/-- If flipping coordinate `j` of a point spoils condition `j` and no other, at most one of `2^m` points
meets all `m` conditions. -/
theorem card_mul_le {Ω : Type} [Finite Ω] (m : ℕ) (good : ℕ → Ω → Prop) (flip : (Fin m → Bool) → Ω → Ω)
    (hinj : ∀ t, Function.Injective (flip t))
    (hflip : ∀ a t, (∀ j < m, good j a) → ∀ j : Fin m, good j (flip t a) ↔ t j = false) :
    Nat.card {a // ∀ j < m, good j a} * 2 ^ m ≤ Nat.card Ω := by
  have e : 2 ^ m = Nat.card (Fin m → Bool) := by simp
  rw [e, ← Nat.card_prod]
  refine Nat.card_le_card_of_injective
    (fun p : {a // ∀ j < m, good j a} × (Fin m → Bool) => flip p.2 p.1.1) ?_
  rintro ⟨⟨a, ha⟩, t⟩ ⟨⟨a', ha'⟩, t'⟩ h
  simp only at h
  have ht : t = t' := by
    funext j
    have h1 := hflip a t ha j
    have h2 := hflip a' t' ha' j
    rw [h, h2] at h1
    cases h3 : t j <;> cases h4 : t' j <;> simp_all
  subst ht
  have := hinj t h
  subst this
  rfl

/-- If every point can be made to meet all conditions by some flips, at least one of `2^m` points meets
them. -/
theorem card_le_mul {Ω : Type} [Finite Ω] (m : ℕ) (good : Ω → Prop) (flip : (Fin m → Bool) → Ω → Ω)
    (hinj : ∀ t, Function.Injective (flip t)) (hex : ∀ a, ∃ t, good (flip t a)) :
    Nat.card Ω ≤ Nat.card {a // good a} * 2 ^ m := by
  have e : 2 ^ m = Nat.card (Fin m → Bool) := by simp
  rw [e, ← Nat.card_prod]
  choose t ht using hex
  refine Nat.card_le_card_of_injective (fun a => ((⟨flip (t a) a, ht a⟩ : {a // good a}), t a)) ?_
  intro a a' h
  obtain ⟨h1, h2⟩ := Prod.mk.inj h
  have h1 := congrArg Subtype.val h1
  simp only at h1
  rw [h2] at h1
  exact hinj _ h1

/-! ### Flipping entries of a challenge matrix -/

/-- The byte with bit `2s` set where `t s`. -/
def flipMask (t : Fin 4 → Bool) : ℕ :=
  (if t 0 then 1 else 0) + (if t 1 then 4 else 0) + (if t 2 then 16 else 0) + (if t 3 then 64 else 0)

theorem flipMask_spec : ∀ t : Fin 4 → Bool, flipMask t < 256 ∧
    ∀ s : Fin 4, (flipMask t).testBit (2 * s) = t s ∧ (flipMask t).testBit (2 * s + 1) = false := by
  decide

/-- Flips the low bits of the entries of row `i` (of `w` bytes) in the columns `t`. -/
def flipRow (i w : ℕ) {m N : ℕ} (t : Fin m → Bool) (buf : Fin N → Fin 256) : Fin N → Fin 256 := fun k =>
  if i * w ≤ k.val ∧ k.val < (i + 1) * w then
    ⟨(buf k).val ^^^ flipMask (fun s => if h : 4 * (k.val - i * w) + s.val < m then t ⟨_, h⟩ else false),
      Nat.xor_lt_two_pow (n := 8) (buf k).2 (flipMask_spec _).1⟩
  else buf k

theorem flipRow_injective (i w : ℕ) {m N : ℕ} (t : Fin m → Bool) :
    Function.Injective (flipRow (N := N) i w t) := by
  intro a b h
  funext k
  have h := congrFun h k
  unfold flipRow at h
  by_cases hk : i * w ≤ k.val ∧ k.val < (i + 1) * w
  · rw [if_pos hk, if_pos hk] at h
    have h := congrArg Fin.val h
    simp only at h
    apply Fin.ext
    exact Nat.xor_left_inj.1 h
  · rwa [if_neg hk, if_neg hk] at h

theorem bufBytes_getD {N : ℕ} (buf : Fin N → Fin 256) (k : ℕ) (hk : k < N) :
    ((bufBytes buf).getD k 0).toNat = (buf ⟨k, hk⟩).val := by
  unfold bufBytes
  rw [List.getD_eq_getElem?_getD, List.getElem?_ofFn, dif_pos hk]
  rfl

theorem ofBits_flip (lo hi : Bool) : ∃ d : ℤ, (d = 1 ∨ d = -1) ∧ ofBits (!lo) hi = ofBits lo hi + d := by
  cases lo <;> cases hi <;> simp [ofBits]

theorem ofBits_zero (lo hi : Bool) : ofBits lo hi = 0 ∨ ofBits lo hi = 1 ∨ ofBits lo hi = -1 := by
  cases lo <;> cases hi <;> simp [ofBits]

theorem ofBits_eq_zero (lo hi : Bool) : ofBits lo hi = 0 ↔ lo = hi := by
  cases lo <;> cases hi <;> simp [ofBits]

/-- The low bit of an entry. -/
theorem flip_entry {n m : ℕ} (h4 : 4 ∣ m) {i : ℕ} (hi : i < n) (t : Fin m → Bool)
    (buf : Fin (challengeBytes n m) → Fin 256) (k : Fin 2) {r c : ℕ} (hr : r < n) (hc : c < m) :
    let lo := (((bufBytes buf).getD (k.val * (n * ((m + 3) / 4)) + (r * ((m + 3) / 4) + c / 4)) 0).toNat).testBit
      (2 * (c % 4))
    let hi := (((bufBytes buf).getD (k.val * (n * ((m + 3) / 4)) + (r * ((m + 3) / 4) + c / 4)) 0).toNat).testBit
      (2 * (c % 4) + 1)
    ternEntry ((bufBytes buf).drop (k.val * (n * ((m + 3) / 4)))) m r c = ofBits lo hi ∧
    ternEntry ((bufBytes (flipRow i ((m + 3) / 4) t buf)).drop (k.val * (n * ((m + 3) / 4)))) m r c =
      ofBits (if k = 0 ∧ r = i ∧ t ⟨c, hc⟩ = true then !lo else lo) hi := by
  obtain ⟨w, rfl⟩ := h4
  have hw : (4 * w + 3) / 4 = w := by omega
  have hN : challengeBytes n (4 * w) = 2 * (n * w) := by
    unfold challengeBytes
    rw [show n * (4 * w) = 4 * (n * w) by ring]
    omega
  have hcw : c / 4 < w := by omega
  have hrw : r * w + c / 4 < n * w := by
    calc r * w + c / 4 < r * w + w := by omega
      _ = (r + 1) * w := by ring
      _ ≤ n * w := Nat.mul_le_mul_right _ hr
  have hidx : k.val * (n * w) + (r * w + c / 4) < challengeBytes n (4 * w) := by
    rw [hN]
    have : k.val * (n * w) ≤ 1 * (n * w) := Nat.mul_le_mul_right _ (by omega)
    omega
  have hdrop : ∀ b : Fin (challengeBytes n (4 * w)) → Fin 256,
      ternEntry ((bufBytes b).drop (k.val * (n * w))) (4 * w) r c =
        ofBits ((((bufBytes b).getD (k.val * (n * w) + (r * w + c / 4)) 0).toNat).testBit (2 * (c % 4)))
          ((((bufBytes b).getD (k.val * (n * w) + (r * w + c / 4)) 0).toNat).testBit (2 * (c % 4) + 1)) := by
    intro b
    unfold ternEntry
    simp only [hw]
    have e : ((bufBytes b).drop (k.val * (n * w))).getD (r * w + c / 4) 0 =
        (bufBytes b).getD (k.val * (n * w) + (r * w + c / 4)) 0 := by
      rw [List.getD_eq_getElem?_getD, List.getD_eq_getElem?_getD, List.getElem?_drop]
    rw [e]
  rw [hw]
  intro lo hi'
  refine ⟨hdrop _, ?_⟩
  rw [hdrop, bufBytes_getD _ _ hidx]
  have e1 : lo = (buf ⟨_, hidx⟩).val.testBit (2 * (c % 4)) := by
    show Nat.testBit _ _ = _
    rw [bufBytes_getD _ _ hidx]
  have e2 : hi' = (buf ⟨_, hidx⟩).val.testBit (2 * (c % 4) + 1) := by
    show Nat.testBit _ _ = _
    rw [bufBytes_getD _ _ hidx]
  rw [e1, e2]
  unfold flipRow
  by_cases hin : k = 0 ∧ r = i
  · obtain ⟨rfl, rfl⟩ := hin
    have hr1 : r * w ≤ (0 : Fin 2).val * (n * w) + (r * w + c / 4) := by simp
    have hr2 : (0 : Fin 2).val * (n * w) + (r * w + c / 4) < (r + 1) * w := by
      simp only [Fin.val_zero, zero_mul, zero_add]
      calc r * w + c / 4 < r * w + w := by omega
        _ = (r + 1) * w := by ring
    rw [if_pos ⟨hr1, hr2⟩]
    dsimp only
    have hs := (flipMask_spec (fun s => if h : 4 * ((0 : Fin 2).val * (n * w) + (r * w + c / 4) - r * w) + s.val < 4 * w
      then t ⟨_, h⟩ else false)).2 ⟨c % 4, by omega⟩
    dsimp only at hs
    rw [Nat.testBit_xor, Nat.testBit_xor, hs.1, hs.2]
    have e3 : 4 * ((0 : Fin 2).val * (n * w) + (r * w + c / 4) - r * w) + c % 4 = c := by
      simp only [Fin.val_zero, zero_mul, zero_add]
      omega
    rw [dif_pos (by rw [e3]; exact hc)]
    have e4 : t ⟨4 * ((0 : Fin 2).val * (n * w) + (r * w + c / 4) - r * w) + c % 4, by rw [e3]; exact hc⟩ = t ⟨c, hc⟩ := by
      congr 1
      exact Fin.ext e3
    rw [e4]
    cases t ⟨c, hc⟩ <;> simp
  · rw [if_neg, if_neg]
    · rintro ⟨a, b, -⟩
      exact hin ⟨a, b⟩
    · rintro ⟨a, b⟩
      apply hin
      dsimp only at a b
      have hk : k.val * n + r = i := by
        have h1 : i * w < (k.val * n + r + 1) * w := by
          calc i * w ≤ k.val * (n * w) + (r * w + c / 4) := a
            _ < k.val * (n * w) + (r * w + w) := by omega
            _ = (k.val * n + r + 1) * w := by ring
        have h2 : (k.val * n + r) * w < (i + 1) * w := by
          calc (k.val * n + r) * w = k.val * (n * w) + r * w := by ring
            _ ≤ k.val * (n * w) + (r * w + c / 4) := by omega
            _ < _ := b
        have h1 := Nat.lt_of_mul_lt_mul_right h1
        have h2 := Nat.lt_of_mul_lt_mul_right h2
        omega
      have hk0 : k = 0 := by
        by_contra hk0
        have : k.val = 1 := by omega
        rw [this] at hk
        omega
      subst hk0
      simp at hk
      exact ⟨rfl, hk⟩

section
variable {q : ℕ} [Fact q.Prime]

theorem replyShort_iff {n m : ℕ} (hn : 0 < n) (hm : 0 < m) (h4 : 4 ∣ m) {x y : EVec q 2} (hx : x.length = n)
    (hy : y.length = m) {B : ℤ} (hB : 0 ≤ B) (buf : Fin (challengeBytes n m) → Fin 256) :
    ReplyShort n m x y B (bufBytes buf) ↔ ∀ j < m, ∀ c : Fin 2,
      |(((∑ i ∈ Finset.range n, x.getD i 0 * ternaryOf (bufBytes buf) n m i j) + y.getD j 0).c c).valMinAbs| ≤ B := by
  have hlen : (bufBytes buf).length = challengeBytes n m := by unfold bufBytes; simp
  have hz : n * ((4 - m % 4) % 4) ≤ 3 := by
    obtain ⟨w, rfl⟩ := h4
    simp
  obtain ⟨Ms, h1, h2⟩ : ∃ Ms, newTernaryEMatrix 2 (fun _ => bufBytes buf) [] n m = .ok Ms ∧
      EHolds Ms fun k : Fin 2 => decoded ((bufBytes buf).drop (k.1 * (n * ((m + 3) / 4)))) n m := by
    have h := (Props.C29_ematrix (fun k => if k = challengeBytes n m then bufBytes buf else List.replicate k 0)
      (by intro k; by_cases hk : k = challengeBytes n m <;> simp [hk, hlen]) [] 2 n m (by norm_num) hn hm).1 hz
    simpa [newTernaryEMatrix, challengeBytes, hn.ne', hm.ne'] using h
  obtain ⟨u, h3, h5, h6⟩ := (acts_of_holds (q := q) _ h2).left x hx
  have hz' : vecAdd u y = .ok (List.zipWith (· + ·) u y) := by
    unfold vecAdd
    rw [if_neg (by omega)]
  have hlz : (List.zipWith (· + ·) u y).length = m := by simp; omega
  have key : lInftyNorm (List.zipWith (· + ·) u y) ≤ B ↔ ∀ j < m, ∀ c : Fin 2,
      |(((∑ i ∈ Finset.range n, x.getD i 0 * ternaryOf (bufBytes buf) n m i j) + y.getD j 0).c c).valMinAbs| ≤ B := by
    rw [lInfty_le _ _ hB]
    have hent : ∀ j (hj : j < m), (List.zipWith (· + ·) u y)[j]'(by omega) =
        (∑ i ∈ Finset.range n, x.getD i 0 * ternaryOf (bufBytes buf) n m i j) + y.getD j 0 := by
      intro j hj
      rw [List.getElem_zipWith, ← h6 j hj, List.getD_eq_getElem _ _ (by omega), List.getD_eq_getElem _ _ (by omega)]
    constructor
    · intro h j hj c
      rw [← hent j hj]
      exact h _ (List.mem_flatMap.2 ⟨_, List.getElem_mem _, (List.mem_ofFn' _ _).2 ⟨c, rfl⟩⟩)
    · intro h s hs
      obtain ⟨e, he, hs⟩ := List.mem_flatMap.1 hs
      obtain ⟨c, rfl⟩ := (List.mem_ofFn' _ _).1 hs
      obtain ⟨j, hj, rfl⟩ := List.mem_iff_getElem.1 he
      rw [hent j (by omega)]
      exact h j (by omega) c
  unfold ReplyShort
  constructor
  · rintro ⟨R, u', z, a1, a2, a3, a4⟩
    rw [h1] at a1
    obtain rfl := Res.ok.inj a1
    rw [h3] at a2
    obtain rfl := Res.ok.inj a2
    rw [hz'] at a3
    obtain rfl := Res.ok.inj a3
    exact key.1 a4
  · exact fun h => ⟨Ms, u, _, h1, h3, hz', key.2 h⟩

end
end Verif
