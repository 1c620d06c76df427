/-
Decoding never loses anything: whatever is decoded, the plaintext and the noise that are returned
belong to it.
-/
import Verif.Lemmas.RegevEnc

namespace Verif.Regev
open Verif Verif.Spec

theorem horner_cons (delta : ℕ) (d acc : ℤ) (ds : List ℤ) :
    ds.foldl (fun (tmp x : ℤ) => tmp * (delta : ℤ) + x) (acc + d) =
      d * delta ^ ds.length + ds.foldl (fun (tmp x : ℤ) => tmp * (delta : ℤ) + x) acc := by
  induction ds generalizing d acc with
  | nil => simp; ring
  | cons x ds ih =>
    rw [List.foldl_cons, List.foldl_cons, List.length_cons,
      show (acc + d) * (delta : ℤ) + x = (acc * delta + x) + d * delta by ring, ih, pow_succ]
    ring

/-- The back substitution is exact if the start value is right modulo the power of `Delta`. -/
theorem backSub_exact (delta : ℕ) (hd : 0 < delta) (last : ℤ) (ds : List ℤ)
    (h : (delta : ℤ) ^ ds.length ∣ last - ds.foldl (fun (tmp x : ℤ) => tmp * (delta : ℤ) + x) 0) :
    ∃ e0 es, backSub delta last ds = e0 :: es ∧ es.length = ds.length ∧ intDiffs delta (e0 :: es) = ds ∧
      (delta : ℤ) ^ ds.length * e0 = last - ds.foldl (fun (tmp x : ℤ) => tmp * (delta : ℤ) + x) 0 := by
  induction ds with
  | nil => exact ⟨last, [], rfl, rfl, rfl, by simp⟩
  | cons d ds ih =>
    have hh : (d :: ds).foldl (fun (tmp x : ℤ) => tmp * (delta : ℤ) + x) 0 =
        d * delta ^ ds.length + ds.foldl (fun (tmp x : ℤ) => tmp * (delta : ℤ) + x) 0 := by
      rw [List.foldl_cons, ← horner_cons]
      simp
    rw [hh, List.length_cons, pow_succ] at h
    obtain ⟨c, hc⟩ := h
    obtain ⟨e0, es, h1, h2, h3, h4⟩ := ih ⟨delta * c + d, by linear_combination hc⟩
    have hD : (delta : ℤ) ^ ds.length ≠ 0 := by positivity
    have he : e0 - d = delta * c := by
      apply mul_left_cancel₀ hD
      linear_combination h4 + hc
    refine ⟨c, e0 :: es, ?_, by simp [h2], ?_, ?_⟩
    · rw [backSub, h1, List.headD_cons, he, Int.mul_fdiv_cancel_left _ (by omega)]
    · rw [intDiffs, h3]
      congr 1
      linear_combination he
    · rw [hh, List.length_cons, pow_succ]
      linear_combination -hc

section
variable {q ell : ℕ}

theorem balanced_cast [NeZero q] (s : ZMod q) : ((balanced s : ℤ) : ZMod q) = s := by
  rw [balanced_eq, ZMod.coe_valMinAbs]

theorem decodeDiffs_length (delta : ℕ) (z0 : ZMod q) (zs : List (ZMod q)) :
    (decodeDiffs delta (z0 :: zs)).length = zs.length := by
  induction zs generalizing z0 with
  | nil => rfl
  | cons z1 zs ih => rw [decodeDiffs, List.length_cons, ih, List.length_cons]

/-- A noise vector with the same differences makes up the vector with `c·(1, Delta, ..)`. -/
theorem diffs_solve [NeZero q] (delta : ℕ) (zs : List (ZMod q)) :
    ∀ (z0 c : ZMod q) (e0 : ℤ) (es : List ℤ), es.length = zs.length →
      intDiffs delta (e0 :: es) = decodeDiffs delta (z0 :: zs) → z0 = -(c + (e0 : ZMod q)) →
      ∀ i < zs.length + 1, (z0 :: zs).getD i 0 =
        -(c * (delta : ZMod q) ^ i + (((e0 :: es).getD i 0 : ℤ) : ZMod q)) := by
  induction zs with
  | nil =>
    intro z0 c e0 es _ _ h i hi
    obtain rfl : i = 0 := by simp at hi; omega
    simpa using h
  | cons z1 zs ih =>
    intro z0 c e0 es hl hdf h i hi
    cases es with
    | nil => simp at hl
    | cons e1 es =>
      rw [intDiffs, decodeDiffs, List.cons.injEq] at hdf
      have hb : ((e1 - delta * e0 : ℤ) : ZMod q) = z0 * delta - z1 := by rw [hdf.1, balanced_cast]
      cases i with
      | zero => simpa using h
      | succ i =>
        have hz1 : z1 = -(c * delta + (e1 : ZMod q)) := by
          push_cast at hb
          rw [h] at hb
          linear_combination hb
        have := ih z1 (c * delta) e1 es (by simpa using hl) hdf.2 hz1 i (by simp at hi; omega)
        rw [List.getD_cons_succ, this, List.getD_cons_succ, pow_succ]
        ring

/-- Whatever is decoded, the result belongs to it. -/
theorem decode_exact [NeZero q] (n delta : ℕ) (hd : 0 < delta) (z : Elt (ZMod q) (n + 1)) :
    z = -((decodePtxt delta z).1 • g q (n + 1) delta + (decodePtxt delta z).2) := by
  obtain ⟨z0, zs, hz, hl⟩ : ∃ z0 zs, z.toList = z0 :: zs ∧ zs.length = n := by
    refine ⟨z.c 0, List.ofFn fun i : Fin n => z.c i.succ, ?_, by simp⟩
    rw [Elt.toList, List.ofFn_succ]
  obtain ⟨ds, hds⟩ : ∃ ds, ds = decodeDiffs delta z.toList := ⟨_, rfl⟩
  have hdl : ds.length = n := by rw [hds, hz, decodeDiffs_length, hl]
  obtain ⟨t0, ht0⟩ : ∃ t0, t0 = ds.foldl (fun (tmp x : ℤ) => tmp * (delta : ℤ) + x) 0 := ⟨_, rfl⟩
  obtain ⟨D, hD⟩ : ∃ D : ℤ, D = (delta : ℤ) ^ n := ⟨_, rfl⟩
  obtain ⟨last, hlast⟩ : ∃ last : ℤ, last =
    (if t0.fmod D ≥ D.fdiv 2 then t0.fmod D - D else if t0.fmod D < (-D).fdiv 2 then t0.fmod D + D else t0.fmod D) :=
    ⟨_, rfl⟩
  have hdvd : D ∣ last - t0 := by
    have h0 : D ∣ t0.fmod D - t0 := by
      have := Int.mul_fdiv_add_fmod t0 D
      exact ⟨-(t0.fdiv D), by linear_combination this⟩
    obtain ⟨c, hc⟩ := h0
    rw [hlast]
    split
    · exact ⟨c - 1, by linear_combination hc⟩
    · split
      · exact ⟨c + 1, by linear_combination hc⟩
      · exact ⟨c, hc⟩
  have hN : decodeNoise delta (n + 1) z.toList = backSub delta last ds := by
    unfold decodeNoise
    simp only [← hds, ← ht0, Nat.add_sub_cancel, ← hD]
    rw [hlast]
  obtain ⟨e0, es, h1, h2, h3, -⟩ := backSub_exact delta hd last ds (by rw [hdl, ← ht0, ← hD]; exact hdvd)
  have hzc : ∀ i : Fin (n + 1), z.c i = (z0 :: zs).getD i 0 := by
    intro i
    rw [← hz, Elt.toList, List.getD_eq_getElem?_getD, List.getElem?_ofFn,
      dif_pos i.2, Option.getD_some]
  have hx : (decodePtxt delta z).1 = -z0 - (e0 : ZMod q) := by
    unfold decodePtxt
    simp only [hN, h1, List.getD_cons_zero]
    rw [Elt.coeff_lt _ (by omega : 0 < n + 1), hzc]
    rfl
  have he : (decodePtxt delta z).2 = ⟨fun i => (((e0 :: es).getD i.val 0 : ℤ) : ZMod q)⟩ := by
    unfold decodePtxt
    simp only [hN, h1]
  apply Elt.ext
  funext i
  rw [hzc, diffs_solve delta zs z0 (decodePtxt delta z).1 e0 es (by rw [h2, hdl, hl])
    (by rw [h3, hds, hz]) (by rw [hx]; ring) i.val (by rw [hl]; exact i.2), he]
  rfl

end
end Verif.Regev
