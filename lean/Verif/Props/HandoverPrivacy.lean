/-
C86: an adversary that in each committee corrupts fewer members than the threshold learns nothing about the
secret, however many handovers it watches.
-/
import Verif.Spec.HandoverView
import Verif.Props.Handover

namespace Verif.Props
open Verif Verif.Spec Polynomial

section
variable {F : Type} [Field F] [DecidableEq F]

/-- The corrupted members are fewer than the threshold in every committee, and the handovers keep to the rules. -/
def FewCorrupted (F : Type) [Field F] : ℕ → List ℤ → List ℤ → List Epoch → Prop
  | t, pts, bad, es => bad.Sublist pts ∧ bad.length + 1 ≤ t ∧ GoodPoints F pts ∧
    match es with
    | [] => True
    | e :: es => e.dealers.Sublist pts ∧ t ≤ e.dealers.length ∧ FewCorrupted F e.thr e.pts e.bad es

omit [DecidableEq F] in
theorem few_nil {t : ℕ} {pts bad : List ℤ} : FewCorrupted F t pts bad [] ↔
    bad.Sublist pts ∧ bad.length + 1 ≤ t ∧ GoodPoints F pts := by
  unfold FewCorrupted; simp

omit [DecidableEq F] in
theorem few_cons {t : ℕ} {pts bad : List ℤ} {e : Epoch} {es : List Epoch} : FewCorrupted F t pts bad (e :: es) ↔
    bad.Sublist pts ∧ bad.length + 1 ≤ t ∧ GoodPoints F pts ∧ e.dealers.Sublist pts ∧ t ≤ e.dealers.length ∧
      FewCorrupted F e.thr e.pts e.bad es := by
  conv_lhs => unfold FewCorrupted

/-- The polynomial that is 1 at 0 and vanishes at the corrupted points. -/
noncomputable def eps (bad : List ℤ) : F[X] := (bad.map fun (b : ℤ) => 1 - C ((b : F)⁻¹) * X).prod

omit [DecidableEq F] in
theorem eps_degree (bad : List ℤ) : (eps (F := F) bad).natDegree ≤ bad.length := by
  unfold eps
  refine le_trans (natDegree_list_prod_le _) ?_
  rw [List.map_map]
  refine le_trans (List.sum_le_card_nsmul _ 1 ?_) (by simp)
  intro n hn
  obtain ⟨b, -, rfl⟩ := List.mem_map.1 hn
  simp only [Function.comp]
  refine le_trans (natDegree_sub_le _ _) ?_
  have := natDegree_C_mul_X_pow_le ((b : F)⁻¹) 1
  rw [pow_one] at this
  simp only [natDegree_one]
  omega

omit [DecidableEq F] in
theorem eps_zero (bad : List ℤ) : (eps (F := F) bad).eval 0 = 1 := by
  unfold eps
  rw [eval_list_prod, List.map_map]
  have h2 : (List.map ((eval 0) ∘ fun (b : ℤ) => (1 - C ((b : F)⁻¹) * X : F[X])) bad) = bad.map fun _ => 1 := by
    apply List.map_congr_left; intro b _; simp
  rw [h2]; simp

omit [DecidableEq F] in
theorem eps_bad {pts bad : List ℤ} (hg : GoodPoints F pts) (hs : bad.Sublist pts) {b : ℤ} (hb : b ∈ bad) :
    (eps (F := F) bad).eval (b : F) = 0 := by
  unfold eps
  rw [eval_list_prod]
  refine List.prod_eq_zero ?_
  rw [List.map_map]
  refine List.mem_map.2 ⟨b, hb, ?_⟩
  simp [hg.ne_zero b (hs.subset hb)]

/-- Adding the coefficients of a polynomial to those that were drawn. -/
noncomputable def shift (p : F[X]) (rs : List F) : List F :=
  List.ofFn fun i : Fin rs.length => rs[i.1] + p.coeff (rs.length - i.1)

omit [DecidableEq F] in
theorem shift_length (p : F[X]) (rs : List F) : (shift p rs).length = rs.length := by simp [shift]

omit [DecidableEq F] in
theorem shift_zero (rs : List F) : shift 0 rs = rs := by
  apply List.ext_getElem
  · simp [shift]
  · intro i h1 h2; simp [shift]

omit [DecidableEq F] in
theorem shift_neg (p : F[X]) (rs : List F) : shift (-p) (shift p rs) = rs := by
  apply List.ext_getElem
  · simp [shift]
  · intro i h1 h2; simp [shift]

omit [DecidableEq F] in
theorem shift_poly (p : F[X]) (rs : List F) (a b : F) (hp : p.natDegree ≤ rs.length) (h0 : p.coeff 0 = b - a) :
    toPoly (sharingCoeffs (shift p rs) b) = toPoly (sharingCoeffs rs a) + p := by
  ext i
  rw [coeff_add, coeff_toPoly, coeff_toPoly]
  unfold sharingCoeffs
  cases i with
  | zero => simp [h0]
  | succ i =>
    simp only [List.getD_cons_succ]
    by_cases hi : i < rs.length
    · rw [List.getD_eq_getElem?_getD, List.getElem?_eq_getElem (by simpa [shift_length] using hi),
        List.getD_eq_getElem?_getD, List.getElem?_eq_getElem (by simpa using hi)]
      simp only [Option.getD_some, List.getElem_reverse, shift, List.getElem_ofFn, List.length_ofFn]
      congr 2
      omega
    · rw [List.getD_eq_getElem?_getD, List.getElem?_eq_none (by simp [shift_length]; omega),
        List.getD_eq_getElem?_getD, List.getElem?_eq_none (by simp; omega),
        coeff_eq_zero_of_natDegree_lt (by omega)]
      simp

/-- The random choices of all handovers that hide a change of the secret by `d`. -/
noncomputable def shiftAll (d : F) : List ℤ → List Epoch → (ℕ → ℤ → List F) → ℕ → ℤ → List F
  | _, [], c => c
  | bad, e :: es, c => fun n x => match n with
    | 0 => shift (C (d * (eps bad).eval (x : F)) * eps e.bad) (c 0 x)
    | n + 1 => shiftAll d e.bad es (fun k => c (k + 1)) n x

omit [DecidableEq F] in
theorem shiftAll_length (d : F) (es : List Epoch) : ∀ (bad : List ℤ) (c : ℕ → ℤ → List F) (n : ℕ) (x : ℤ),
    (shiftAll d bad es c n x).length = (c n x).length := by
  induction es with
  | nil => intros; rfl
  | cons e es ih =>
    intro bad c n x
    cases n with
    | zero => exact shift_length _ _
    | succ n => exact ih e.bad (fun k => c (k + 1)) n x

omit [DecidableEq F] in
theorem shiftAll_neg (d : F) (es : List Epoch) : ∀ (bad : List ℤ) (c : ℕ → ℤ → List F),
    shiftAll (-d) bad es (shiftAll d bad es c) = c := by
  induction es with
  | nil => intros; rfl
  | cons e es ih =>
    intro bad c
    funext n x
    cases n with
    | zero =>
      show shift _ (shift _ (c 0 x)) = _
      rw [show C (-d * (eps (F := F) bad).eval (x : F)) * eps e.bad =
        -(C (d * (eps bad).eval (x : F)) * eps e.bad) by rw [neg_mul, C_neg, neg_mul]]
      exact shift_neg _ _
    | succ n => exact congrFun (congrFun (ih e.bad fun k => c (k + 1)) n) x

theorem view_shift (d : F) (es : List Epoch) : ∀ (t : ℕ) (pts bad : List ℤ) (f : ℤ → F) (c : ℕ → ℤ → List F),
    FewCorrupted F t pts bad es → (∀ k e, es[k]? = some e → ∀ x ∈ e.dealers, (c k x).length + 1 = e.thr) →
    ∃ w, view pts bad (pts.map f) es c = .ok w ∧
      view pts bad (pts.map fun x => f x + d * (eps bad).eval (x : F)) es (shiftAll d bad es c) = .ok w := by
  induction es with
  | nil =>
    intro t pts bad f c h hc
    obtain ⟨h1, h2, h3⟩ := few_nil.1 h
    refine ⟨_, rfl, ?_⟩
    unfold view
    rw [sharesFor_map _ h1 h3.nodup, sharesFor_map _ h1 h3.nodup]
    congr 2
    apply List.map_congr_left
    intro b hb
    rw [eps_bad h3 h1 hb, mul_zero, add_zero]
  | cons e es ih =>
    intro t pts bad f c h hc
    obtain ⟨h1, h2, h3, h4, h5, h6⟩ := few_cons.1 h
    have hgR := h3.sub h4
    have hbad' : e.bad.Sublist e.pts ∧ e.bad.length + 1 ≤ e.thr ∧ GoodPoints F e.pts := by
      cases es with
      | nil => exact few_nil.1 h6
      | cons e' es' => exact ⟨(few_cons.1 h6).1, (few_cons.1 h6).2.1, (few_cons.1 h6).2.2.1⟩
    obtain ⟨b1, b2, b3⟩ := hbad'
    -- the polynomials of the dealings
    obtain ⟨Q, hQ⟩ : ∃ Q : ℤ → F[X], ∀ x, Q x = toPoly (sharingCoeffs (c 0 x) (f x)) := ⟨_, fun _ => rfl⟩
    obtain ⟨Q', hQ'⟩ : ∃ Q' : ℤ → F[X], ∀ x, Q' x = Q x + C (d * (eps bad).eval (x : F)) * eps e.bad := ⟨_, fun _ => rfl⟩
    have e1 : dealings pts (pts.map f) (e.with (c 0)) = e.dealers.map fun x => deal e.pts (Q x) := by
      rw [dealings_map f (e.with (c 0)) h4 h3.nodup]
      apply List.map_congr_left
      intro x _
      rw [hQ]
      rfl
    have e2 : dealings pts (pts.map fun x => f x + d * (eps bad).eval (x : F))
        (e.with (shiftAll d bad (e :: es) c 0)) = e.dealers.map fun x => deal e.pts (Q' x) := by
      rw [dealings_map _ (e.with (shiftAll d bad (e :: es) c 0)) h4 h3.nodup]
      apply List.map_congr_left
      intro x hx
      rw [hQ', hQ]
      have hl := hc 0 e rfl x hx
      have := shift_poly (C (d * (eps bad).eval (x : F)) * eps e.bad) (c 0 x) (f x)
        (f x + d * (eps bad).eval (x : F)) (by
          refine (natDegree_C_mul_le _ _).trans ((eps_degree _).trans ?_)
          omega) (by
          rw [coeff_C_mul, coeff_zero_eq_eval_zero, eps_zero]
          ring)
      rw [← this]
      rfl
    have s1 : handover pts (pts.map f) (e.with (c 0)) =
        .ok (e.pts.map fun (y : ℤ) => (combined e.dealers Q).eval (y : F)) := by
      unfold handover
      rw [e1]
      exact newShares_deal hgR e.pts Q
    have s2 : handover pts (pts.map fun x => f x + d * (eps bad).eval (x : F))
        (e.with (shiftAll d bad (e :: es) c 0)) =
        .ok (e.pts.map fun (y : ℤ) => (combined e.dealers Q).eval (y : F) + d * (eps e.bad).eval (y : F)) := by
      unfold handover
      rw [e2]
      refine (newShares_deal hgR e.pts Q').trans ?_
      congr 1
      apply List.map_congr_left
      intro y _
      rw [combined_eval, combined_eval]
      have hdeg : (eps (F := F) bad).degree < e.dealers.length := by
        refine lt_of_le_of_lt degree_le_natDegree ?_
        have := eps_degree (F := F) bad
        exact_mod_cast (by omega : (eps (F := F) bad).natDegree < e.dealers.length)
      have hz := lag_sum hgR (eps (F := F) bad) hdeg
      rw [eps_zero] at hz
      have : (e.dealers.map fun x => lag e.dealers x * (Q' x).eval (y : F)) =
          e.dealers.map fun x => lag e.dealers x * (Q x).eval (y : F) +
            (lag e.dealers x * (eps bad).eval (x : F)) * (d * (eps e.bad).eval (y : F)) := by
        apply List.map_congr_left
        intro x _
        rw [hQ']
        simp only [eval_add, eval_mul, eval_C]
        ring
      rw [this, List.sum_map_add, List.sum_map_mul_right, hz, one_mul]
    obtain ⟨w, w1, w2⟩ := ih e.thr e.pts e.bad (fun y => (combined e.dealers Q).eval (y : F)) (fun k => c (k + 1)) h6
      fun k e' hk => hc (k + 1) e' hk
    refine ⟨_, by unfold view; rw [s1, Res.ok_bind, w1, Res.ok_bind], ?_⟩
    unfold view
    rw [s2, Res.ok_bind]
    rw [show (fun k => shiftAll d bad (e :: es) c (k + 1)) = shiftAll d e.bad es fun k => c (k + 1) from rfl, w2,
      Res.ok_bind]
    congr 1
    rw [e1, e2, sharesFor_map _ h1 h3.nodup, sharesFor_map _ h1 h3.nodup]
    have p1 : (bad.map fun x => f x + d * (eps bad).eval (x : F)) = bad.map f := by
      apply List.map_congr_left
      intro b hb
      rw [eps_bad h3 h1 hb, mul_zero, add_zero]
    have p2 : (e.dealers.filter fun x => x ∈ bad).map (shiftAll d bad (e :: es) c 0) =
        (e.dealers.filter fun x => x ∈ bad).map (c 0) := by
      apply List.map_congr_left
      intro x hx
      have hb : x ∈ bad := by simpa using (List.mem_filter.1 hx).2
      show shift _ (c 0 x) = c 0 x
      rw [eps_bad h3 h1 hb, mul_zero, C_0, zero_mul, shift_zero]
    have p3 : ((e.dealers.map fun x => deal e.pts (Q' x)).map fun d => sharesAt e.pts d e.bad) =
        (e.dealers.map fun x => deal e.pts (Q x)).map fun d => sharesAt e.pts d e.bad := by
      rw [List.map_map, List.map_map]
      apply List.map_congr_left
      intro x _
      simp only [Function.comp, deal]
      rw [sharesAt_eq e.pts _ (fun y => (Q' x).eval (y : F)) e.bad b1 b3.nodup,
        sharesAt_eq e.pts _ (fun y => (Q x).eval (y : F)) e.bad b1 b3.nodup]
      apply List.map_congr_left
      intro b hb
      rw [hQ', eval_add, eval_mul, eps_bad b3 b1 hb, mul_zero, add_zero]
    rw [p1, p2, p3]

/-- **C86.** Whatever the committees, the dealers and the corrupted members of each committee, as long as in each
committee fewer members are corrupted than its threshold: for any two secrets there is a bijection of all the
random choices (of the first sharing and of all the dealings) under which the adversary sees exactly the same.
So for uniformly random choices its view has the same distribution for every secret, although over time it may
have corrupted every party. -/
theorem C86_privacy (t : ℕ) (pts bad : List ℤ) (es : List Epoch) (h : FewCorrupted F t pts bad es) (s s' : F) :
    ∃ φ : List F × (ℕ → ℤ → List F) → List F × (ℕ → ℤ → List F),
      Set.BijOn φ {c | SizedCoins t es c} {c | SizedCoins t es c} ∧
      ∀ c, SizedCoins t es c → ∃ w, view pts bad (newSharing pts c.1 s).tail es c.2 = .ok w ∧
        view pts bad (newSharing pts (φ c).1 s').tail es (φ c).2 = .ok w := by
  have hbad : bad.length + 1 ≤ t := by
    cases es with
    | nil => exact (few_nil.1 h).2.1
    | cons e es => exact (few_cons.1 h).2.1
  have maps : ∀ (p : F[X]) d, Set.MapsTo (fun c : List F × (ℕ → ℤ → List F) => (shift p c.1, shiftAll d bad es c.2))
      {c | SizedCoins t es c} {c | SizedCoins t es c} := by
    rintro p d c ⟨h1, h2⟩
    refine ⟨by simpa [shift_length] using h1, fun k e hk x hx => ?_⟩
    simp only [shiftAll_length]
    exact h2 k e hk x hx
  have inv : ∀ (p : F[X]) d (c : List F × (ℕ → ℤ → List F)),
      ((shift (-p) (shift p c.1)), shiftAll (-d) bad es (shiftAll d bad es c.2)) = c := by
    intro p d c
    rw [shift_neg, shiftAll_neg]
  refine ⟨fun c => (shift (C (s' - s) * eps bad) c.1, shiftAll (s' - s) bad es c.2), ⟨maps _ _, ?_, ?_⟩, ?_⟩
  · intro a _ b _ hab
    rw [← inv (C (s' - s) * eps bad) (s' - s) a, ← inv (C (s' - s) * eps bad) (s' - s) b]
    obtain ⟨e1, e2⟩ := Prod.mk.inj hab
    rw [e1, e2]
  · intro c hc
    refine ⟨_, maps (-(C (s' - s) * eps bad)) (-(s' - s)) hc, ?_⟩
    have := inv (-(C (s' - s) * eps bad)) (-(s' - s)) c
    rwa [neg_neg, neg_neg] at this
  · rintro c ⟨h1, h2⟩
    obtain ⟨w, w1, w2⟩ := view_shift (s' - s) es t pts bad
      (fun x => (toPoly (sharingCoeffs c.1 s)).eval (x : F)) c.2 h h2
    refine ⟨w, ?_, ?_⟩
    · rw [newSharing_eq]
      exact w1
    · rw [newSharing_eq, List.tail_cons]
      rw [shift_poly (C (s' - s) * eps bad) c.1 s s' (by
          refine (natDegree_C_mul_le _ _).trans ((eps_degree _).trans ?_)
          omega) (by rw [coeff_C_mul, coeff_zero_eq_eval_zero, eps_zero, mul_one])]
      rw [← w2]
      congr 1
      apply List.map_congr_left
      intro x _
      simp only [eval_add, eval_mul, eval_C]

theorem view_last (es : List Epoch) : ∀ (pts bad : List ℤ) (shares : List F) (c : ℕ → ℤ → List F) (w : List (List F)),
    view pts bad shares es c = .ok w → ∃ pre shares', handovers pts shares (history es c) = .ok shares' ∧
      w = pre ++ [sharesFor (lastPts pts (history es c)) shares' (lastBad bad es)] := by
  induction es with
  | nil =>
    intro pts bad shares c w h
    exact ⟨[], shares, rfl, (Res.ok.inj h).symm⟩
  | cons e es ih =>
    intro pts bad shares c w h
    unfold view at h
    obtain ⟨sh, h1, h⟩ := Res.bind_eq_ok.1 h
    obtain ⟨rest, h2, h⟩ := Res.bind_eq_ok.1 h
    obtain ⟨pre, sh', h3, rfl⟩ := ih _ _ _ _ _ h2
    refine ⟨(sharesFor pts shares bad :: (e.dealers.filter fun x => x ∈ bad).map (c 0)) ++
      ((dealings pts shares (e.with (c 0))).map fun d => sharesAt e.pts d e.bad) ++ pre, sh', ?_, ?_⟩
    · rw [history, handovers, h1, Res.ok_bind]
      exact h3
    · rw [← Res.ok.inj h, List.append_assoc _ pre]
      rfl

omit [DecidableEq F] in
theorem history_last (es : List Epoch) : ∀ (t : ℕ) (pts : List ℤ) (c c' : ℕ → ℤ → List F),
    lastPts pts (history es c) = lastPts pts (history es c') ∧ lastThr t (history es c) = lastThr t (history es c') := by
  induction es with
  | nil => intros; exact ⟨rfl, rfl⟩
  | cons e es ih => intro t pts c c'; exact ih e.thr e.pts _ _

/-- **C86.** The bound is sharp: once the corrupted members of a committee are as many as its threshold, what the
adversary has seen determines the secret. -/
theorem C86_sharp (t : ℕ) (pts bad : List ℤ) (hg : GoodPoints F pts) (es : List Epoch)
    (c c' : List F × (ℕ → ℤ → List F)) (hc : c.1.length + 1 = t) (hc' : c'.1.length + 1 = t)
    (hH : Allowed t pts (history es c.2)) (hH' : Allowed t pts (history es c'.2))
    (hb : (lastBad bad es).Sublist (lastPts pts (history es c.2)))
    (hmany : lastThr t (history es c.2) ≤ (lastBad bad es).length) (s s' : F) (w : List (List F))
    (h : view pts bad (newSharing pts c.1 s).tail es c.2 = .ok w)
    (h' : view pts bad (newSharing pts c'.1 s').tail es c'.2 = .ok w) : s = s' := by
  obtain ⟨pre, sh, e1, e2⟩ := view_last _ _ _ _ _ _ h
  obtain ⟨pre', sh', e1', e2'⟩ := view_last _ _ _ _ _ _ h'
  obtain ⟨x, f1, -, f2⟩ := C85_handovers t pts hg c.1 hc s _ hH
  obtain ⟨x', f1', -, f2'⟩ := C85_handovers t pts hg c'.1 hc' s' _ hH'
  rw [e1] at f1
  rw [e1'] at f1'
  obtain rfl := Res.ok.inj f1
  obtain rfl := Res.ok.inj f1'
  obtain ⟨hp, ht⟩ := history_last es t pts c.2 c'.2
  have g := f2 _ hb hmany
  have g' := f2' (lastBad bad es) (by rw [← hp]; exact hb) (by rw [← ht]; exact hmany)
  rw [e2] at e2'
  have := (List.append_inj' e2' rfl).2
  rw [List.cons.inj this |>.1, g'] at g
  exact (Res.ok.inj g).symm

/-- Two handovers among five parties with thresholds 2, 3, 2; the adversary corrupts party 1, then 2 and 3, then 5. -/
def demoEs : List Epoch :=
  [{ dealers := [2, 4], pts := [1, 2, 3, 4, 5], thr := 3, bad := [2, 3] },
   { dealers := [1, 2, 3, 5], pts := [1, 2, 3, 4, 5], thr := 2, bad := [5] }]

theorem demo_few : FewCorrupted (ZMod 17) 2 [1, 2, 3, 4, 5] [1] demoEs := by
  refine few_cons.2 ⟨by decide, by decide, good_example, by decide, by decide, few_cons.2 ⟨by decide, by decide,
    good_example, by decide, by decide, few_nil.2 ⟨by decide, by decide, good_example⟩⟩⟩

example : SizedCoins 2 demoEs (([7] : List (ZMod 17)), fun k x => if k = 0 then [(x : ZMod 17), 4] else [3]) := by
  refine ⟨rfl, fun k e hk x _ => ?_⟩
  match k, hk with
  | 0, hk => obtain rfl := Option.some.inj hk; rfl
  | 1, hk => obtain rfl := Option.some.inj hk; rfl

/-- The adversary that corrupts two members of the last committee: the hypotheses of `C86_sharp` are met. -/
example : let es : List Epoch := [{ dealers := [2, 4], pts := [1, 2, 3, 4, 5], thr := 2, bad := [2, 3] }]
    let c : ℕ → ℤ → List (ZMod 17) := fun _ x => [(x : ZMod 17)]
    Allowed 2 [1, 2, 3, 4, 5] (history es c) ∧ (lastBad [1] es).Sublist (lastPts [1, 2, 3, 4, 5] (history es c)) ∧
      lastThr 2 (history es c) ≤ (lastBad [1] es).length ∧
      ∃ w, view [1, 2, 3, 4, 5] [1] (newSharing [1, 2, 3, 4, 5] [7] (3 : ZMod 17)).tail es c = .ok w :=
  ⟨⟨by decide, by decide, good_example, fun _ _ => rfl, trivial⟩, by decide, by decide, _, rfl⟩

end
end Verif.Props
