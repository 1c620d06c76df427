/-
Lemmas on committees that hand over a shared secret.
-/
import Verif.Spec.Handover
import Verif.Props.Main

namespace Verif
open Verif.Spec Verif.Props Polynomial

section
variable {F : Type} [Field F]

/-- The coefficient with which `lagrangeCoeffs` weighs the share of point `xi`. -/
noncomputable def lag (R : List ℤ) (xi : ℤ) : F :=
  ((R.filter (· ≠ xi)).map fun (x : ℤ) => (x : F)).prod /
    ((R.filter (· ≠ xi)).map fun (x : ℤ) => ((x - xi : ℤ) : F)).prod

/-- All entries of a dealing with polynomial `p`. -/
noncomputable def deal (pts : List ℤ) (p : F[X]) : List F := p.eval 0 :: pts.map fun (x : ℤ) => p.eval (x : F)

theorem lag_coeffs [DecidableEq F] {R : List ℤ} (hg : GoodPoints F R) :
    lagrangeCoeffs R = .ok (R.map (lag (F := F) R)) :=
  lagrangeOuter_eq R R hg.range hg.inj

theorem lag_sum {R : List ℤ} (hg : GoodPoints F R) (p : F[X]) (hp : p.degree < R.length) :
    (R.map fun xi => lag R xi * p.eval (xi : F)).sum = p.eval 0 :=
  lagrange_zero R hg.nodup hg.inj p hp

theorem inner_map (R : List ℤ) (a b : ℤ → F) :
    ntlInnerProduct (R.map a) (R.map b) = (R.map fun x => a x * b x).sum := by
  unfold ntlInnerProduct
  rw [List.zip_map', List.map_map]
  rfl

theorem newShare_deal [DecidableEq F] {R : List ℤ} (hg : GoodPoints F R) (pts : List ℤ) (Q : ℤ → F[X]) (j : ℕ)
    (hj : j < pts.length) :
    newShare (R.map fun x => deal pts (Q x)) R j = .ok ((R.map fun x => lag R x * (Q x).eval (pts[j] : F)).sum) := by
  unfold newShare
  rw [mapRes_ok (g := fun d => d.getD (j + 1) 0) (by
    intro d hd
    obtain ⟨x, -, rfl⟩ := List.mem_map.1 hd
    have hl : j + 1 < (deal pts (Q x)).length := by simp [deal, hj]
    unfold rd
    rw [List.getElem?_eq_getElem hl, List.getD_eq_getElem?_getD, List.getElem?_eq_getElem hl]
    rfl), Res.ok_bind, List.map_map]
  unfold getSecret
  rw [lag_coeffs hg, Res.ok_bind]
  have : ((fun d => d.getD (j + 1) 0) ∘ fun x => deal pts (Q x)) = fun x => (Q x).eval (pts[j] : F) := by
    funext x
    simp [deal, hj]
  rw [this, inner_map]
  rfl

/-- The polynomial of the new sharing. -/
noncomputable def combined (R : List ℤ) (Q : ℤ → F[X]) : F[X] := (R.map fun x => C (lag R x) * Q x).sum

theorem combined_eval (R : List ℤ) (Q : ℤ → F[X]) (z : F) :
    (combined R Q).eval z = (R.map fun x => lag R x * (Q x).eval z).sum := by
  unfold combined
  rw [eval_listSum, List.map_map]
  congr 1
  apply List.map_congr_left
  intro x _
  simp

theorem combined_degree (R : List ℤ) (Q : ℤ → F[X]) (t : ℕ) (h : ∀ x ∈ R, (Q x).degree < t) :
    (combined R Q).degree < t := by
  rw [← mem_degreeLT]
  unfold combined
  apply list_sum_mem
  intro p hp
  obtain ⟨x, hx, rfl⟩ := List.mem_map.1 hp
  rw [← smul_eq_C_mul]
  exact Submodule.smul_mem _ _ (mem_degreeLT.2 (h x hx))

theorem newShares_deal [DecidableEq F] {R : List ℤ} (hg : GoodPoints F R) (pts : List ℤ) (Q : ℤ → F[X]) :
    mapRes (newShare (R.map fun x => deal pts (Q x)) R) (List.range pts.length) =
      .ok (pts.map fun (y : ℤ) => (combined R Q).eval (y : F)) := by
  rw [mapRes_ok (g := fun j => (combined R Q).eval ((pts.getD j 0 : ℤ) : F)) (by
    intro j hj
    have hj := List.mem_range.1 hj
    rw [newShare_deal hg pts Q j hj, combined_eval, List.getD_eq_getElem?_getD, List.getElem?_eq_getElem hj]
    rfl)]
  congr 1
  apply List.ext_getElem
  · simp
  · intro i h1 h2
    have hi : i < pts.length := by simpa using h2
    simp [hi]

theorem zip_map_self (pts : List ℤ) (f : ℤ → F) : pts.zip (pts.map f) = pts.map fun x => (x, f x) := by
  rw [show pts.zip (pts.map f) = (pts.map id).zip (pts.map f) by rw [List.map_id], List.zip_map']
  rfl

theorem sharesFor_map {pts sub : List ℤ} (f : ℤ → F) (hs : sub.Sublist pts) (hn : pts.Nodup) :
    sharesFor pts (pts.map f) sub = sub.map f :=
  sharesAt_eq pts 0 f sub hs hn

theorem dealings_map {pts : List ℤ} (f : ℤ → F) (H : Handover F) (hs : H.dealers.Sublist pts) (hn : pts.Nodup) :
    dealings pts (pts.map f) H =
      H.dealers.map fun x => deal H.pts (toPoly (sharingCoeffs (H.coins x) (f x))) := by
  unfold dealings
  rw [zip_map_self, List.filter_map, List.map_map]
  have : ((fun p : ℤ × F => decide (p.1 ∈ H.dealers)) ∘ fun x => (x, f x)) = fun x => decide (x ∈ H.dealers) := rfl
  rw [this, filter_mem_sublist H.dealers pts hs hn]
  apply List.map_congr_left
  intro x _
  exact newSharing_eq _ _ _

end
end Verif
