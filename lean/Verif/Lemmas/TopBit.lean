/- Lemmas for proofs with responses of `2^255` or more. -/
import Verif.Spec.TopBit
import Verif.Lemmas.ProofBytes
import Verif.Lemmas.BPTag
import Verif.Props.ProofBytes
import Verif.Props.TreeExists
import Verif.Props.QuadSound

namespace Verif
open Verif.Sc Verif.Spec Verif.Props

theorem length_addFirst {F : Type} [Add F] (c : F) (l : List F) : (addFirst c l).length = l.length := by
  cases l <;> rfl

theorem mexp_addFirst {F G : Type} [Field F] [AddCommGroup G] [Module F G] (c : F) (l : List F) (gs : List G)
    (h : l.length = gs.length) :
    mexp (addFirst c l) gs = mexp l gs + c • gs.headD 0 := by
  cases l with
  | nil =>
    obtain rfl : gs = [] := List.length_eq_zero_iff.1 h.symm
    simp [addFirst]
  | cons a l =>
    cases gs with
    | nil => simp at h
    | cons g gs => simp only [addFirst, mexp_cons, List.headD_cons]; module

theorem two255_ne : (2 ^ 255 : ZMod order) ≠ 0 := by
  intro h
  apply two_pow_ne
  rw [h, mul_zero]

/-- Every residue has 32 bytes with the top bit as wanted. -/
theorem encodesTop_exists (x : ZMod order) (top : Bool) : ∃ b, EncodesTop b x top := by
  have hx := ZMod.val_lt x
  have h1 : 9 * order < 2 ^ 256 := by decide +kernel
  have h2 : 2 ^ 255 ≤ 8 * order := by decide +kernel
  have h3 : order ≤ 2 ^ 255 := by decide +kernel
  cases top with
  | false =>
    refine ⟨zzBytes 32 ((x.val : ℕ) : ℤ), zzBytes_length _ _, ?_, ?_⟩
    all_goals
      rw [← leVal_eq, zzBytes_val, Int.natAbs_natCast, Nat.mod_eq_of_lt (by
        rw [show 256 ^ 32 = 2 ^ 256 by norm_num]; omega)]
    · exact ZMod.natCast_zmod_val x
    · simp only [Bool.false_eq_true, false_iff, not_le]
      omega
  | true =>
    refine ⟨zzBytes 32 ((8 * order + x.val : ℕ) : ℤ), zzBytes_length _ _, ?_, ?_⟩
    all_goals
      rw [← leVal_eq, zzBytes_val, Int.natAbs_natCast, Nat.mod_eq_of_lt (by
        rw [show 256 ^ 32 = 2 ^ 256 by norm_num]; omega)]
    · rw [Nat.cast_add, Nat.cast_mul, ZMod.natCast_self, mul_zero, zero_add, ZMod.natCast_zmod_val]
    · simp only [true_iff]
      omega

theorem encodesTop_err {b : Bytes} {x : ZMod order} {top : Bool} (h : EncodesTop b x top) :
    topErr b = -topValue top := by
  unfold topErr topValue
  cases top with
  | false => rw [if_neg (fun hc => by simpa using h.2.2.2 hc)]; simp
  | true => rw [if_pos (h.2.2.1 rfl), if_pos rfl]

/-- Bytes that do not make the multiplication fail. -/
theorem encodesTop_low {b : Bytes} {x : ZMod order} (h : EncodesTop b x true) (hx : x ≠ 2 ^ 255) :
    ((number b % 2 ^ 255 : ℕ) : ZMod order) ≠ 0 := by
  have hge := h.2.2.1 rfl
  have hlt := leVal_lt b
  rw [h.1, leVal_eq] at hlt
  have hm : number b % 2 ^ 255 = number b - 2 ^ 255 := by
    rw [Nat.mod_eq_sub_mod hge]
    apply Nat.mod_eq_of_lt
    have hH : (2 : ℕ) ^ 255 + 2 ^ 255 = 256 ^ 32 := by norm_num
    generalize (256 : ℕ) ^ 32 = M at *
    generalize (2 : ℕ) ^ 255 = H at *
    omega
  rw [hm, Nat.cast_sub hge, h.2.1, Nat.cast_pow]
  exact sub_ne_zero.2 hx

theorem isScalar_low {b : Bytes} {x : ZMod order} (h : IsScalar b x) :
    b.length = 32 ∧ ((number b : ℕ) : ZMod order) = x ∧ ((number b % 2 ^ 255 : ℕ) : ZMod order) = x ∧
      (number b = 0 ∨ ((number b % 2 ^ 255 : ℕ) : ZMod order) ≠ 0) ∧ EncodesTop b x false := by
  have h3 : order ≤ 2 ^ 255 := by decide +kernel
  have hx := ZMod.val_lt x
  have hn := h.2
  have hlt : number b < 2 ^ 255 := by rw [hn]; omega
  have hc : ((number b : ℕ) : ZMod order) = x := by rw [hn]; exact ZMod.natCast_zmod_val x
  refine ⟨h.1, hc, by rw [Nat.mod_eq_of_lt hlt]; exact hc, ?_, h.1, hc, by simp; exact hlt⟩
  rw [Nat.mod_eq_of_lt hlt, hc]
  by_cases h0 : x = 0
  · left; rw [hn, h0, ZMod.val_zero]
  · right; exact h0

section
variable {G : Type} [DecidableEq G] [AddCommGroup G] [Module (ZMod order) G]
  {S : Sodium} {E : Env (ZMod order) G}

theorem quad_forgery (h : SodiumOk S E.pointBytes E.base) (hs : ∀ x, IsScalar (E.scalarBytes x) x)
    (hT : IgnoresTopBit S) (coins : Nat → ZMod order × ZMod order) (pf pf' : QuadPf (ZMod order) G)
    (r : ZMod order) (st st' : E.St) (as bs : List (ZMod order)) (gs hs' : List G) (n : Nat) (da db : ZMod order)
    (u v : Option (List (ZMod order)))
    (hn1 : 1 ≤ n) (hn2 : n ≤ 2 ^ 63) (ha : as.length = n) (hb : bs.length = n) (hg : gs.length = n)
    (hh : hs'.length = n) (hu : ∀ o, u = some o → o.length = n) (hv : ∀ o, v = some o → o.length = n)
    (hL : pf.Ls = []) (hR : pf.Rs = [])
    (hC : pf.C = r • E.base + mexp as gs + mexp bs hs' + mexp (u.getD []) gs + mexp (v.getD []) hs')
    (hp : proveQuadratic E coins pf r st gs (addFirst da as) hs' (addFirst db bs) n = .ok (pf', st'))
    (a b r' : Bytes) (ha32 : a.length = 32) (hb32 : b.length = 32) (hae : ((number a : ℕ) : ZMod order) = pf'.a)
    (hbe : ((number b : ℕ) : ZMod order) = pf'.b) (hr : IsScalar r' pf'.r)
    (ha0 : u = none → number a = 0 ∨ ((number a % 2 ^ 255 : ℕ) : ZMod order) ≠ 0)
    (hb0 : v = none → number b = 0 ∨ ((number b % 2 ^ 255 : ℕ) : ZMod order) ≠ 0)
    (hda : firstErr a u = -da) (hdb : firstErr b v = -db) :
    verifyQuadraticR E S (quadRaw E pf' a b r') (gs.map E.pointBytes) (hs'.map E.pointBytes) n
      (dot (addFirst da as) (addFirst db bs)) st u v = .ok (true, st') := by
  obtain ⟨r1, -, r2, r3, -⟩ := isScalar_low hr
  rcases proveQuadratic_spec E coins pf r st (addFirst da as)
    (addFirst db bs) gs hs' n hn1 hn2 (by rw [length_addFirst]; exact ha)
    (by rw [length_addFirst]; exact hb) hg hh hL hR with ⟨ht, -⟩ | ⟨q, hq, -, hqC, hqL, hqR, hq0, hqE⟩
  · rw [ht] at hp; cases hp
  rw [hq] at hp
  obtain ⟨rfl, rfl⟩ : q = pf' ∧ (deriveQuad E q n st).st = st' := by
    have := Res.ok.inj hp; exact ⟨congrArg Prod.fst this, congrArg Prod.snd this⟩
  obtain ⟨c, hc, hiff⟩ := C98_quadratic_exact h hs hT q a b r' ha32 hb32 r1 hae.symm
    hbe.symm r2.symm u v ha0 hb0 r3 gs hs' n
    (dot (addFirst da as) (addFirst db bs)) st hn1 hn2 hg hh hu hv hqL hqR hq0
  rw [hc]
  have : c = true := hiff.2 (by
    have := (hqE (dot (addFirst da as) (addFirst db bs))
      (offPlus n u (firstErr a u)) (offPlus n v (firstErr b v))).2 (by
        rw [hC, mexp_offPlus hn1 u _ hu, mexp_offPlus hn1 v _ hv,
          mexp_addFirst _ _ _ (by omega), mexp_addFirst _ _ _ (by omega), hda, hdb]
        simp only [offList]
        module)
    unfold QuadEq at this
    unfold QuadEqErr
    rw [mexp_offPlus hn1 u _ hu, mexp_offPlus hn1 v _ hv] at this
    simpa only [offList, add_assoc] using this)
  rw [this]

end

/-! ### Trees -/

theorem ite_cases {α : Type} {p q r : Prop} [Decidable p] [Decidable q] [Decidable r] {c d : α}
    (h1 : (if p then c else d) ≠ if q then c else d) (h2 : (if p then c else d) ≠ if r then c else d) :
    (if q then c else d) = if r then c else d := by
  split_ifs at * <;> first | rfl | exact absurd rfl h1 | exact absurd rfl h2

theorem firstErr_cases (a b : Bytes) (u v : Option (List (ZMod order))) (h : u = none ↔ v = none)
    (c : Bytes) (w : Option (List (ZMod order))) (h' : u = none ↔ w = none)
    (h1 : firstErr a u ≠ firstErr b v) (h2 : firstErr a u ≠ firstErr c w) : firstErr b v = firstErr c w := by
  cases u with
  | none =>
    obtain rfl := h.1 rfl
    obtain rfl := h'.1 rfl
    exact ite_cases h1 h2
  | some o =>
    cases v with
    | none => simp at h
    | some o' =>
      cases w with
      | none => simp at h'
      | some o'' => exact ite_cases h1 h2

theorem samePair_spec (off : Option (List (ZMod order))) (x : Fin 3 → ZMod order) (a : Fin 3 → Bytes) :
    (samePair off x a).1 ≠ (samePair off x a).2 ∧
    answerErr off (x (samePair off x a).1) (a (samePair off x a).1) =
      answerErr off (x (samePair off x a).2) (a (samePair off x a).2) := by
  unfold samePair
  split_ifs with h1 h2
  · exact ⟨by decide, h1⟩
  · exact ⟨by decide, h2⟩
  · refine ⟨by decide, ?_⟩
    exact firstErr_cases _ _ _ _ (by simp) _ _ (by simp) h1 h2

section
variable {K G : Type} [AddCommGroup K] [DecidableEq G] [AddCommGroup G] [Module (ZMod order) G]
  {Sd : Sodium} {enc : K → Bytes} {dec : Bytes → Option K} {ι : G →+ K} {base : G}

theorem verifyLinearR_lens {E : Env (ZMod order) G} {pf : LinPfR} {bs : List (ZMod order)} {gs : List Bytes}
    {n : Nat} {eq : ZMod order} {st : E.St} {off : Option (List (ZMod order))} {v : Bool × E.St}
    (acc : verifyLinearR E Sd pf bs gs n eq st off = .ok v) :
    pf.Ls.length = log2roundUp n ∧ pf.Rs.length = log2roundUp n := by
  unfold verifyLinearR at acc
  obtain ⟨f, -, acc⟩ := Res.bind_eq_ok.1 acc
  obtain ⟨C, -, acc⟩ := Res.bind_eq_ok.1 acc
  by_contra hc
  rw [not_and_or] at hc
  rw [if_pos hc] at acc
  cases acc

theorem linAcceptedR_eq (h : CurveOk Sd enc dec ι base) (hT : IgnoresTopBit Sd) {gs : List G}
    {bs : List (ZMod order)} {eq : ZMod order} {off : Option (List (ZMod order))} {C : Bytes} {Fg : G}
    {Ls Rs : List Bytes} {xs : List (ZMod order)} {S : Bytes} {x : ZMod order} {a r : Bytes}
    (hn1 : 1 ≤ gs.length) (hn2 : gs.length ≤ 2 ^ 63) (hb : bs.length = gs.length)
    (ho : ∀ o, off = some o → o.length = gs.length)
    (acc : LinAcceptedR Sd enc ι base gs bs eq off C Fg Ls Rs xs S x a r) :
    xs.length = log2roundUp gs.length ∧ Ls.length = xs.length ∧ Rs.length = xs.length ∧ 0 ∉ xs ∧ x ≠ 0 ∧
    ∃ (C' S' : G) (Ls' Rs' : List G), dec C = some (ι C') ∧ dec S = some (ι S') ∧
      Ls = Ls'.map (fun g => enc (ι g)) ∧ Rs = Rs'.map (fun g => enc (ι g)) ∧
      S' + x • (C' + eq • Fg + mexp xs Ls' + mexp (xs.map (·⁻¹)) Rs') =
        ((number r % 2 ^ 255 : ℕ) : ZMod order) • base +
          (((number a : ℕ) : ZMod order) * foldedSum xs bs) • Fg +
          (((number a : ℕ) : ZMod order) • foldedSum xs gs + x • mexp (off.getD []) gs +
            answerErr off x a • gs.headD 0) := by
  obtain ⟨ha, hr, E, tag, st, st', hbase, hp, hs, hF, hxs, hx, hv⟩ := acc
  subst hbase
  obtain ⟨hl1, hl2⟩ := verifyLinearR_lens hv
  obtain ⟨α, ρ, e, rfl, rfl, he, h1, h2, -, C', S', Ls', Rs', e1, e2, e3, e4, e5⟩ :=
    C98_linear_accepts h hT hp hs _ ha hr bs gs gs.length eq st st' off hn1 hn2 hb rfl ho hv
  have hd : deriveLinB E (linWith ⟨tag, C, Ls, Rs, S, a, r⟩ ((number a : ℕ) : ZMod order)
      ((number r % 2 ^ 255 : ℕ) : ZMod order)) gs.length st =
      deriveLinB E ⟨tag, C, Ls, Rs, S, 0, 0⟩ gs.length st := rfl
  simp only at hl1 hl2 h1 h2 he e5 e1 e2 e3 e4
  rw [hd] at h1 h2 he e5
  have hxl : xs.length = log2roundUp gs.length := by
    rw [← hxs]
    simp only [deriveLinB, length_foldChallengesB, hl1, hl2, min_self]
  refine ⟨hxl, by omega, by omega, by rw [← hxs]; exact h1, by rw [← hx]; exact h2, C', S', Ls', Rs', e1, e2, e3, e4,
    ?_⟩
  unfold LinEqErr at e5
  rw [hF, hxs, hx] at e5
  rw [hx] at he
  rw [answerErr, ← he]
  exact e5

/-- The tree with points. -/
theorem linTreeR_tree (h : CurveOk Sd enc dec ι base) (hT : IgnoresTopBit Sd) {gs : List G}
    {bs : List (ZMod order)} {eq : ZMod order} {off : Option (List (ZMod order))} {C : Bytes} {Fg : G}
    (hn1 : 1 ≤ gs.length) (hn2 : gs.length ≤ 2 ^ 63) (hb : bs.length = gs.length)
    (ho : ∀ o, off = some o → o.length = gs.length) (t : LinTreeR) :
    ∀ (Ls Rs : List Bytes) (xs : List (ZMod order)), t.Accepted Sd enc ι base gs bs eq off C Fg Ls Rs xs →
      Ls.length = xs.length → Rs.length = xs.length →
      ∃ (C' : G) (Ls' Rs' : List G) (t' : LinTree (ZMod order) G), dec C = some (ι C') ∧
        Ls = Ls'.map (fun g => enc (ι g)) ∧ Rs = Rs'.map (fun g => enc (ι g)) ∧
        t'.Accepted base gs bs eq off C' Fg Ls' Rs' xs ∧ t'.extract = (t.answers off).extract := by
  have hinj := h.toSodiumOk.inj
  have hι : Function.Injective ι := fun p q e => hinj (by simp only [e])
  have hC : ∀ {p q : G}, dec C = some (ι p) → dec C = some (ι q) → p = q := by
    intro p q e1 e2
    rw [e1, Option.some.injEq] at e2
    exact hι e2
  have hmap : ∀ {p q : List G}, p.map (fun g => enc (ι g)) = q.map (fun g => enc (ι g)) → p = q :=
    fun e => List.map_injective_iff.2 hinj e
  induction t with
  | leaf S x a r =>
    rintro Ls Rs xs ⟨hx, hacc⟩ hL hR
    obtain ⟨hij, herr⟩ := samePair_spec off x a
    obtain ⟨i, hi⟩ : ∃ i, i = (samePair off x a).1 := ⟨_, rfl⟩
    obtain ⟨j, hj⟩ : ∃ j, j = (samePair off x a).2 := ⟨_, rfl⟩
    rw [← hi, ← hj] at hij herr
    obtain ⟨hxl, -, -, hz, hxi, C1, S1, Ls1, Rs1, c1, s1, l1, r1, q1⟩ := linAcceptedR_eq h hT hn1 hn2 hb ho (hacc i)
    obtain ⟨-, -, -, -, hxj, C2, S2, Ls2, Rs2, c2, s2, l2, r2, q2⟩ := linAcceptedR_eq h hT hn1 hn2 hb ho (hacc j)
    obtain rfl := hC c1 c2
    obtain rfl : S1 = S2 := by
      rw [s1, Option.some.injEq] at s2
      exact hι s2
    obtain rfl := hmap (l1.symm.trans l2)
    obtain rfl := hmap (r1.symm.trans r2)
    have hl' : Ls1.length = xs.length := by rw [← hL, l1, List.length_map]
    have hr' : Rs1.length = xs.length := by rw [← hR, r1, List.length_map]
    rw [← herr] at q2
    generalize answerErr off (x i) (a i) = e at q1 q2
    refine ⟨C1, Ls1, Rs1, .leaf (S1 - e • gs.headD 0) (x i) ((number (a i) : ℕ) : ZMod order)
      ((number (r i) % 2 ^ 255 : ℕ) : ZMod order) (x j) ((number (a j) : ℕ) : ZMod order)
      ((number (r j) % 2 ^ 255 : ℕ) : ZMod order), c1, l1, r1, ⟨fun e => hij (hx e), ?_, ?_⟩, ?_⟩
    · refine linAccepted_of hn1 hn2 hb ho hxl hl' hr' hz hxi ?_
      rw [sub_add_eq_add_sub, q1]
      abel
    · refine linAccepted_of hn1 hn2 hb ho hxl hl' hr' hz hxj ?_
      rw [sub_add_eq_add_sub, q2]
      abel
    · simp only [LinTreeR.answers, LinTree.extract, ← hi, ← hj]
  | node L R x t ih =>
    rintro Ls Rs xs ⟨hx, hacc⟩ hL hR
    have key := fun i => ih i _ _ _ (hacc i) (by simp [hL]) (by simp [hR])
    obtain ⟨C0, Ls0, Rs0, t0, c0, l0, r0, a0, e0⟩ := key 0
    obtain ⟨C1, Ls1, Rs1, t1, c1, l1, r1, a1, e1⟩ := key 1
    obtain ⟨C2, Ls2, Rs2, t2, c2, l2, r2, a2, e2⟩ := key 2
    obtain rfl := hC c0 c1
    obtain rfl := hC c0 c2
    obtain rfl := hmap (l0.symm.trans l1)
    obtain rfl := hmap (l0.symm.trans l2)
    obtain rfl := hmap (r0.symm.trans r1)
    obtain rfl := hmap (r0.symm.trans r2)
    obtain ⟨A, B, rfl, hA, hB⟩ := List.map_eq_append_iff.1 l0.symm
    obtain ⟨A', B', rfl, hA', hB'⟩ := List.map_eq_append_iff.1 r0.symm
    obtain ⟨b, rfl⟩ : ∃ b, B = [b] := List.length_eq_one_iff.1 (by simpa using congrArg List.length hB)
    obtain ⟨b', rfl⟩ : ∃ b, B' = [b] := List.length_eq_one_iff.1 (by simpa using congrArg List.length hB')
    refine ⟨C0, A, A', .node b b' (x 0) (x 1) (x 2) t0 t1 t2, c0, hA.symm, hA'.symm,
      ⟨fun e => by simpa using hx e, fun e => by simpa using hx e, fun e => by simpa using hx e, a0, a1, a2⟩, ?_⟩
    simp only [LinTreeR.answers, LinTree.extract, e0, e1, e2]

theorem verifyQuadraticR_lens {E : Env (ZMod order) G} {pf : QuadPfR} {gs hs : List Bytes}
    {n : Nat} {eq : ZMod order} {st : E.St} {u v : Option (List (ZMod order))} {w : Bool × E.St}
    (acc : verifyQuadraticR E Sd pf gs hs n eq st u v = .ok w) :
    pf.Ls.length = log2roundUp n ∧ pf.Rs.length = log2roundUp n := by
  unfold verifyQuadraticR at acc
  obtain ⟨f, -, acc⟩ := Res.bind_eq_ok.1 acc
  obtain ⟨C, -, acc⟩ := Res.bind_eq_ok.1 acc
  by_contra hc
  rw [not_and_or] at hc
  rw [if_pos hc] at acc
  cases acc

theorem quadAcceptedR_eq (h : CurveOk Sd enc dec ι base) (hT : IgnoresTopBit Sd) {gs hs : List G}
    {eq : ZMod order} {u v : Option (List (ZMod order))} {C : Bytes} {Fg : G}
    {Ls Rs : List Bytes} {xs : List (ZMod order)} {S1 S2 : Bytes} {x : ZMod order} {a b r : Bytes}
    (hn1 : 1 ≤ gs.length) (hn2 : gs.length ≤ 2 ^ 63) (hh : hs.length = gs.length)
    (hu : ∀ o, u = some o → o.length = gs.length) (hv : ∀ o, v = some o → o.length = gs.length)
    (acc : QuadAcceptedR Sd enc ι base gs hs eq u v C Fg Ls Rs xs S1 S2 x a b r) :
    xs.length = log2roundUp gs.length ∧ 0 ∉ xs ∧
    ∃ (C' : G) (Ls' Rs' : List G) (S1' S2' : G), dec C = some (ι C') ∧
      Ls = Ls'.map (fun g => enc (ι g)) ∧ Rs = Rs'.map (fun g => enc (ι g)) ∧
      (x ≠ 0 → dec S1 = some (ι S1') ∧ S2 = enc (ι S2')) ∧
      C' + eq • Fg + mexp xs Ls' + mexp (xs.map (·⁻¹)) Rs' + x • S1' + (x * x) • S2' =
        ((number r % 2 ^ 255 : ℕ) : ZMod order) • base +
          (((number a : ℕ) : ZMod order) • foldedSum xs gs + mexp (u.getD []) gs + firstErr a u • gs.headD 0) +
          (((number b : ℕ) : ZMod order) • foldedSum (xs.map (·⁻¹)) hs + mexp (v.getD []) hs +
            firstErr b v • hs.headD 0) +
          (((number a : ℕ) : ZMod order) * ((number b : ℕ) : ZMod order)) • Fg := by
  obtain ⟨ha, hb, hr, E, tag, st, st', hbase, hp, hs', hF, hxs, hx, hv'⟩ := acc
  subst hbase
  obtain ⟨hl1, hl2⟩ := verifyQuadraticR_lens hv'
  obtain ⟨α, β, ρ, e, e', rfl, rfl, rfl, rfl, rfl, h1, -, C', Ls', Rs', S1', S2', e1, e2, e3, e4, e5⟩ :=
    C98_quadratic_accepts h hT hp hs' _ ha hb hr gs hs gs.length eq st st' u v hn1 hn2 rfl hh hu hv hv'
  have hd : deriveQuadB E (quadWith ⟨tag, C, Ls, Rs, S1, S2, a, b, r⟩ ((number a : ℕ) : ZMod order)
      ((number b : ℕ) : ZMod order) ((number r % 2 ^ 255 : ℕ) : ZMod order)) gs.length st =
      deriveQuadB E ⟨tag, C, Ls, Rs, S1, S2, 0, 0, 0⟩ gs.length st := rfl
  simp only at hl1 hl2 h1 e5 e1 e2 e3 e4
  rw [hd] at h1 e4 e5
  have hxl : xs.length = log2roundUp gs.length := by
    rw [← hxs]
    simp only [deriveQuadB, length_foldChallengesB, hl1, hl2, min_self]
  refine ⟨hxl, by rw [← hxs]; exact h1, C', Ls', Rs', S1', S2', e1, e2, e3, by rw [← hx]; exact e4, ?_⟩
  unfold QuadEqErr at e5
  rw [hF, hxs, hx] at e5
  exact e5

theorem shift_eq {G : Type} [AddCommGroup G] {P F A B X Y R p q e p' q' e' W : G}
    (h : P + F + A + B + X + Y = R + (p + q + e) + (p' + q' + e') + W) :
    P - e - e' + F + A + B + X + Y = R + (p + q) + (p' + q') + W := by
  have h1 : P - e - e' + F + A + B + X + Y = (P + F + A + B + X + Y) - e - e' := by abel
  rw [h1, h]
  abel

/-- The tree with points, for a changed commitment. -/
theorem quadTreeR_tree (h : CurveOk Sd enc dec ι base) (hT : IgnoresTopBit Sd) {gs hs : List G}
    {eq : ZMod order} {u v : Option (List (ZMod order))} {e e' : ZMod order} {C : Bytes} {Fg : G}
    (hn1 : 1 ≤ gs.length) (hn2 : gs.length ≤ 2 ^ 63) (hh : hs.length = gs.length)
    (hu : ∀ o, u = some o → o.length = gs.length) (hv : ∀ o, v = some o → o.length = gs.length)
    (t : QuadTreeR) :
    ∀ (Ls Rs : List Bytes) (xs : List (ZMod order)),
      t.Accepted Sd enc ι base gs hs eq u v e e' C Fg Ls Rs xs →
      Ls.length = xs.length → Rs.length = xs.length →
      ∃ (C' : G) (Ls' Rs' : List G) (t' : QuadTree (ZMod order) G), dec C = some (ι C') ∧
        Ls = Ls'.map (fun g => enc (ι g)) ∧ Rs = Rs'.map (fun g => enc (ι g)) ∧
        t'.Accepted base gs hs eq u v (C' - e • gs.headD 0 - e' • hs.headD 0) Fg Ls' Rs' xs ∧
        (∀ k, t'.extract k = t.answers.extract k) ∧ ∀ k, t'.relations k = t.answers.relations k := by
  have hinj := h.toSodiumOk.inj
  have hι : Function.Injective ι := fun p q e => hinj (by simp only [e])
  have hC : ∀ {D : Bytes} {p q : G}, dec D = some (ι p) → dec D = some (ι q) → p = q := by
    intro D p q e1 e2
    rw [e1, Option.some.injEq] at e2
    exact hι e2
  have hmap : ∀ {p q : List G}, p.map (fun g => enc (ι g)) = q.map (fun g => enc (ι g)) → p = q :=
    fun e => List.map_injective_iff.2 hinj e
  induction t with
  | leaf S1 S2 x a b r =>
    rintro Ls Rs xs ⟨hx, hacc⟩ hL hR
    have key := fun i => quadAcceptedR_eq h hT hn1 hn2 hh hu hv (hacc i).2.2
    obtain ⟨i, hi⟩ : ∃ i, x i ≠ 0 := by
      by_contra hc
      push Not at hc
      have : (0 : Fin 5) = 1 := hx (by rw [hc, hc])
      simp at this
    obtain ⟨hxl, hz, C1, Ls1, Rs1, S11, S21, c1, l1, r1, s1, q1⟩ := key i
    have hl' : Ls1.length = xs.length := by rw [← hL, l1, List.length_map]
    have hr' : Rs1.length = xs.length := by rw [← hR, r1, List.length_map]
    refine ⟨C1, Ls1, Rs1, .leaf S11 S21 x (fun i => ((number (a i) : ℕ) : ZMod order))
      (fun i => ((number (b i) : ℕ) : ZMod order)) (fun i => ((number (r i) % 2 ^ 255 : ℕ) : ZMod order)),
      c1, l1, r1, ⟨hx, fun j => ?_⟩, fun k => ?_, fun k => ?_⟩
    · obtain ⟨-, -, C2, Ls2, Rs2, S12, S22, c2, l2, r2, s2, q2⟩ := key j
      obtain rfl := hC c1 c2
      obtain rfl := hmap (l1.symm.trans l2)
      obtain rfl := hmap (r1.symm.trans r2)
      rw [(hacc j).1, (hacc j).2.1] at q2
      refine quadAccepted_of hn1 hn2 hh hu hv hxl hl' hr' hz ?_
      have hS : x j • S11 + (x j * x j) • S21 = x j • S12 + (x j * x j) • S22 := by
        by_cases hj : x j = 0
        · simp [hj]
        · rw [hC (s1 hi).1 (s2 hj).1, hinj ((s1 hi).2.symm.trans (s2 hj).2)]
      rw [add_assoc, hS, ← add_assoc]
      exact shift_eq q2
    · simp only [QuadTreeR.answers, QuadTree.extract]
    · simp only [QuadTreeR.answers, QuadTree.relations]
  | node L R x t ih =>
    rintro Ls Rs xs ⟨hx, hacc⟩ hL hR
    have key := fun i => ih i _ _ _ (hacc i) (by simp [hL]) (by simp [hR])
    choose Cf Lf Rf tf cf lf rf af ef rlf using key
    have hCf : ∀ i, Cf i = Cf 0 := fun i => hC (cf i) (cf 0)
    have hLf : ∀ i, Lf i = Lf 0 := fun i => hmap ((lf i).symm.trans (lf 0))
    have hRf : ∀ i, Rf i = Rf 0 := fun i => hmap ((rf i).symm.trans (rf 0))
    obtain ⟨A, B, hAB, hA, hB⟩ := List.map_eq_append_iff.1 (lf 0).symm
    obtain ⟨A', B', hAB', hA', hB'⟩ := List.map_eq_append_iff.1 (rf 0).symm
    obtain ⟨b, rfl⟩ : ∃ b, B = [b] := List.length_eq_one_iff.1 (by simpa using congrArg List.length hB)
    obtain ⟨b', rfl⟩ : ∃ b, B' = [b] := List.length_eq_one_iff.1 (by simpa using congrArg List.length hB')
    refine ⟨Cf 0, A, A', .node b b' x tf, cf 0, hA.symm, hA'.symm, ⟨hx, fun i => ?_⟩, fun k => ?_, fun k => ?_⟩
    · have := af i
      rw [hCf i, hLf i, hRf i, hAB, hAB'] at this
      exact this
    · simp only [QuadTreeR.answers, QuadTree.extract, ef]
    · simp only [QuadTreeR.answers, QuadTree.relations, ef, rlf]

end

end Verif
