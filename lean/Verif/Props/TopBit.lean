/-
C99: what can be proved with responses of `2^255` or more.

The verifier of a quadratic proof reads the responses `a` and `b` in two ways if their top bit is
set.  A prover can use this to prove a claim that is false of the committed vectors: what is proved
is the claim for the vectors with `2^255` added to the first entries.  Linear proofs are not
affected: an opening can be extracted as before, from three answers instead of two.
-/
import Verif.Lemmas.TopBit

namespace Verif.Props
open Verif.Sc Verif.Spec

section
variable {G : Type} [DecidableEq G] [AddCommGroup G] [Module (ZMod order) G]
  {S : Sodium} {E : Env (ZMod order) G}

omit [DecidableEq G] [AddCommGroup G] [Module (ZMod order) G] in
/-- Every residue other than `2^255` can be written in 32 bytes with the top bit set, so that the point
multiplication does not fail. -/
theorem C99_encodings (x : ZMod order) (hx : x ≠ 2 ^ 255) :
    ∃ a, EncodesTop a x true ∧ ((number a % 2 ^ 255 : ℕ) : ZMod order) ≠ 0 := by
  obtain ⟨a, ha⟩ := encodesTop_exists x true
  exact ⟨a, ha, encodesTop_low ha hx⟩

/-- Whoever has committed to `as` and `bs` and runs the prover with `2^255` added to the first entry
of one or both, then writes the responses with the top bit set, has a proof that the verifier
accepts for the inner product of the changed vectors. -/
theorem C99_quadratic_forgery (h : SodiumOk S E.pointBytes E.base) (hs : ∀ x, IsScalar (E.scalarBytes x) x)
    (hT : IgnoresTopBit S) (coins : Nat → ZMod order × ZMod order) (pf pf' : QuadPf (ZMod order) G)
    (r : ZMod order) (st st' : E.St) (as bs : List (ZMod order)) (gs hs' : List G) (n : Nat) (ta tb : Bool)
    (hn1 : 1 ≤ n) (hn2 : n ≤ 2 ^ 63) (ha : as.length = n) (hb : bs.length = n) (hg : gs.length = n)
    (hh : hs'.length = n) (hL : pf.Ls = []) (hR : pf.Rs = [])
    (hC : pf.C = r • E.base + mexp as gs + mexp bs hs')
    (hp : proveQuadratic E coins pf r st gs (addFirst (topValue ta) as) hs' (addFirst (topValue tb) bs) n =
      .ok (pf', st'))
    (a b r' : Bytes) (hae : EncodesTop a pf'.a ta) (hbe : EncodesTop b pf'.b tb) (hr : IsScalar r' pf'.r)
    (ha0 : number a = 0 ∨ ((number a % 2 ^ 255 : ℕ) : ZMod order) ≠ 0)
    (hb0 : number b = 0 ∨ ((number b % 2 ^ 255 : ℕ) : ZMod order) ≠ 0) :
    verifyQuadraticR E S (quadRaw E pf' a b r') (gs.map E.pointBytes) (hs'.map E.pointBytes) n
      (dot (addFirst (topValue ta) as) (addFirst (topValue tb) bs)) st none none = .ok (true, st') :=
  quad_forgery h hs hT coins pf pf' r st st' as bs gs hs' n _ _ none none hn1 hn2 ha hb hg hh (by simp) (by simp) hL
    hR (by rw [hC]; simp) hp a b r' hae.1 hbe.1 hae.2.1 hbe.2.1 hr (fun _ => ha0) (fun _ => hb0) (encodesTop_err hae)
    (encodesTop_err hbe)

/-- With offsets, likewise with `2^256`, for responses such that adding the offset carries. -/
theorem C99_offset_forgery (h : SodiumOk S E.pointBytes E.base) (hs : ∀ x, IsScalar (E.scalarBytes x) x)
    (hT : IgnoresTopBit S) (coins : Nat → ZMod order × ZMod order) (pf pf' : QuadPf (ZMod order) G)
    (r : ZMod order) (st st' : E.St) (as bs u v : List (ZMod order)) (gs hs' : List G) (n : Nat)
    (hn1 : 1 ≤ n) (hn2 : n ≤ 2 ^ 63) (ha : as.length = n) (hb : bs.length = n) (hg : gs.length = n)
    (hh : hs'.length = n) (hu : u.length = n) (hv : v.length = n) (hL : pf.Ls = []) (hR : pf.Rs = [])
    (hC : pf.C = r • E.base + mexp as gs + mexp bs hs' + mexp u gs + mexp v hs')
    (hp : proveQuadratic E coins pf r st gs (addFirst (2 ^ 256) as) hs' bs n = .ok (pf', st'))
    (a b r' : Bytes) (ha32 : a.length = 32) (hae : ((number a : ℕ) : ZMod order) = pf'.a)
    (hcarry : 2 ^ 256 ≤ number a + (u.headD 0).val) (hbe : IsScalar b pf'.b) (hr : IsScalar r' pf'.r) :
    verifyQuadraticR E S (quadRaw E pf' a b r') (gs.map E.pointBytes) (hs'.map E.pointBytes) n
      (dot as bs + 2 ^ 256 * bs.headD 0) st (some u) (some v) = .ok (true, st') := by
  obtain ⟨b1, b2, -, -, -, -, b3⟩ := isScalar_low hbe
  have hlt : number b < 2 ^ 255 := by
    by_contra hc
    have := b3.2 (not_lt.1 hc)
    simp at this
  have hf : addFirst 0 bs = bs := by cases bs <;> simp [addFirst]
  have := quad_forgery h hs hT coins pf pf' r st st' as bs gs hs' n (2 ^ 256) 0 (some u) (some v) hn1 hn2 ha hb hg hh
    (by rintro o ⟨⟩; exact hu) (by rintro o ⟨⟩; exact hv) hL hR hC (by rw [hf]; exact hp) a b r' ha32 b1 hae b2 hr
    (by simp) (by simp) (if_pos hcarry) (by rw [firstErr_low hlt, neg_zero])
  rw [hf] at this
  have hdot : ∀ c : ZMod order, dot (addFirst c as) bs = dot as bs + c * bs.headD 0 := by
    intro c
    cases as with
    | nil => simp at ha; omega
    | cons x as =>
      cases bs with
      | nil => simp at hb; omega
      | cons y bs =>
        simp only [addFirst, dot_cons, List.headD_cons]
        ring
  rw [hdot] at this
  exact this

omit [DecidableEq G] [AddCommGroup G] [Module (ZMod order) G] in
/-- The inner product of the changed vectors. -/
theorem C99_value (as bs : List (ZMod order)) (ta tb : Bool) (h : as.length = bs.length) (h0 : bs ≠ []) :
    dot (addFirst (topValue ta) as) (addFirst (topValue tb) bs) = dot as bs + topValue ta * bs.headD 0 +
      topValue tb * as.headD 0 + topValue ta * topValue tb := by
  cases as with
  | nil => exact absurd (List.length_eq_zero_iff.1 h.symm) h0
  | cons a as =>
    cases bs with
    | nil => exact absurd rfl h0
    | cons b bs =>
      simp only [addFirst, dot_cons, List.headD_cons]
      ring

/-- In particular, with the function that takes a constraint: for every constraint and any committed
vectors that do not satisfy it, but whose inner product is wrong by `2^255` times the first entry of the
second vector, the proof is accepted. -/
theorem C99_tag_forgery (h : SodiumOk S E.pointBytes E.base) (hs : ∀ x, IsScalar (E.scalarBytes x) x)
    (hT : IgnoresTopBit S) (coins : Nat → ZMod order × ZMod order) (tag : Bytes) (r : ZMod order)
    (c : QuadConstraint (ZMod order)) (as bs : List (ZMod order)) (C : G) (pf : QuadPf (ZMod order) G)
    (st : E.St) (h1 : 1 ≤ c.indexes.length) (h2 : c.indexes.length ≤ 2 ^ 20)
    (ha : as.length = c.indexes.length) (hb : bs.length = c.indexes.length) (hb0 : bs.headD 0 ≠ 0)
    (hC : C = r • E.base + mexp as (c.indexes.map (E.getG tag)) + mexp bs (c.indexes.map (E.getH tag)))
    (heq : c.equalsTo = dot as bs + 2 ^ 255 * bs.headD 0)
    (hp : proveQuadratic E coins ⟨tag, C, [], [], 0, 0, 0, 0, 0⟩ r
      (E.processQuad (E.newCtx tag) lblConstraint c) (c.indexes.map (E.getG tag)) (addFirst (2 ^ 255) as)
      (c.indexes.map (E.getH tag)) bs c.indexes.length = .ok (pf, st))
    (hza : pf.a ≠ 2 ^ 255) :
    dot as bs ≠ c.equalsTo ∧ pf.C = C ∧ pf.tag = tag ∧ ∃ a : Bytes, EncodesTop a pf.a true ∧
      verifyQuadraticTagR E S c (quadRaw E pf a (E.scalarBytes pf.b) (E.scalarBytes pf.r)) = .ok true := by
  have hne : bs ≠ [] := by rintro rfl; simp at hb; omega
  have hf : addFirst (topValue false) bs = bs := by
    cases bs with
    | nil => rfl
    | cons => simp [addFirst, topValue]
  have ht : topValue true = 2 ^ 255 := if_pos rfl
  have ht' : topValue false = 0 := if_neg (by simp)
  obtain ⟨a, ea, ea0⟩ := C99_encodings pf.a hza
  obtain ⟨-, -, -, eb0, eb⟩ := isScalar_low (hs pf.b)
  have e4 := C99_quadratic_forgery h hs hT coins ⟨tag, C, [], [], 0, 0, 0, 0, 0⟩ pf r
    (E.processQuad (E.newCtx tag) lblConstraint c) st as bs (c.indexes.map (E.getG tag))
    (c.indexes.map (E.getH tag)) c.indexes.length true false h1 (by omega) ha hb (by simp) (by simp) rfl rfl hC
    (by rw [hf, ht]; exact hp) a (E.scalarBytes pf.b) (E.scalarBytes pf.r) ea eb (hs _) (Or.inr ea0) eb0
  have hv := C99_value as bs true false (by omega) hne
  have hv' : dot (addFirst (topValue true) as) (addFirst (topValue false) bs) = c.equalsTo := by
    rw [hv, ht, ht', zero_mul, mul_zero, add_zero, add_zero, heq]
  rw [hv'] at e4
  have htag : pf.C = C ∧ pf.tag = tag := by
    rcases proveQuadratic_spec E coins ⟨tag, C, [], [], 0, 0, 0, 0, 0⟩ r
      (E.processQuad (E.newCtx tag) lblConstraint c) (addFirst (2 ^ 255) as) bs (c.indexes.map (E.getG tag))
      (c.indexes.map (E.getH tag)) c.indexes.length h1 (by omega) (by rw [length_addFirst]; exact ha) hb (by simp)
      (by simp) rfl rfl with ⟨ht, -⟩ | ⟨q, hq, hq1, hq2, -⟩
    · rw [ht] at hp; cases hp
    · rw [hq] at hp
      obtain rfl : q = pf := congrArg Prod.fst (Res.ok.inj hp)
      exact ⟨hq2, hq1⟩
  refine ⟨?_, htag.1, htag.2, a, ea, ?_⟩
  · rw [heq]
    intro hcon
    exact mul_ne_zero two255_ne hb0 (by linear_combination -hcon)
  · unfold verifyQuadraticTagR
    dsimp only [quadRaw]
    rw [htag.2, mkFlatQuad_verifier E tag c h1 h2]
    simp only [Res.ok_bind, List.length_map]
    rw [show (⟨tag, E.pointBytes pf.C, pf.Ls.map E.pointBytes, pf.Rs.map E.pointBytes, E.pointBytes pf.S1,
      E.pointBytes pf.S2, a, E.scalarBytes pf.b, E.scalarBytes pf.r⟩ : QuadPfR) =
      quadRaw E pf a (E.scalarBytes pf.b) (E.scalarBytes pf.r) by rw [quadRaw, htag.2], e4]
    rfl

end

/-! ### The public verifiers on responses below `2^255` -/

section
variable {G : Type} [DecidableEq G] [AddCommGroup G] [Module (ZMod order) G]
  {S : Sodium} {E : Env (ZMod order) G}

/-- The public verifiers answer as they do on residues, if the responses are below `2^255` and stand for
zero only if they are zero. -/
theorem C98_tag_linear (h : SodiumOk S E.pointBytes E.base) (hs : ∀ x, IsScalar (E.scalarBytes x) x)
    (pf : LinPf (ZMod order) G) (a r : Bytes) (ha : StandsFor a pf.a) (hr : StandsFor r pf.r)
    (c : LinConstraint (ZMod order)) (h1 : 1 ≤ c.terms.length) (h2 : c.terms.length ≤ 2 ^ 20) :
    verifyLinearTagR E S c (linRaw E pf a r) = verifyLinearTag E c pf := by
  unfold verifyLinearTagR verifyLinearTag
  have ht : (linRaw E pf a r).tag = pf.tag := rfl
  rw [ht, mkFlatLin_verifier E pf.tag c h1 h2]
  simp only [Res.ok_bind, List.length_map]
  rw [C98_linear_residues h hs (linRaw E pf a r) pf.a pf.r ha hr _ _ _ _ _ none h1 (by omega) (by simp) (by simp)
    (by simp)]
  rw [show linWith (linRaw E pf a r) pf.a pf.r = linBytes E pf from rfl, C97_linear_refines h hs]

theorem C98_tag_quadratic (h : SodiumOk S E.pointBytes E.base) (hs : ∀ x, IsScalar (E.scalarBytes x) x)
    (pf : QuadPf (ZMod order) G) (a b r : Bytes) (ha : StandsFor a pf.a) (hb : StandsFor b pf.b)
    (hr : StandsFor r pf.r) (c : QuadConstraint (ZMod order)) (h1 : 1 ≤ c.indexes.length)
    (h2 : c.indexes.length ≤ 2 ^ 20) :
    verifyQuadraticTagR E S c (quadRaw E pf a b r) = verifyQuadraticTag E c pf := by
  unfold verifyQuadraticTagR verifyQuadraticTag
  have ht : (quadRaw E pf a b r).tag = pf.tag := rfl
  rw [ht, mkFlatQuad_verifier E pf.tag c h1 h2]
  simp only [Res.ok_bind, List.length_map]
  rw [C98_quadratic_residues h hs (quadRaw E pf a b r) pf.a pf.b pf.r ha hb hr _ _ _ _ _ none none h1 (by omega)
    (by simp) (by simp) (by simp) (by simp)]
  rw [show quadWith (quadRaw E pf a b r) pf.a pf.b pf.r = quadBytes E pf from rfl, C97_quadratic_refines h hs]

theorem C98_tag_norm (h : SodiumOk S E.pointBytes E.base) (hs : ∀ x, IsScalar (E.scalarBytes x) x)
    (pf : QuadPf (ZMod order) G) (a b r : Bytes) (ha : StandsFor a pf.a) (hb : StandsFor b pf.b)
    (hr : StandsFor r pf.r) (indexes : List Nat) (normSq : ZMod order) (h1 : 1 ≤ indexes.length)
    (h2 : indexes.length ≤ 2 ^ 20) :
    verifyNormSquaredR E S indexes normSq (quadRaw E pf a b r) = verifyNormSquared E indexes normSq pf := by
  unfold verifyNormSquaredR verifyNormSquared
  dsimp only [quadRaw]
  rw [mkFlatQuad_verifier E pf.tag ⟨indexes, normSq⟩ h1 h2]
  simp only [Res.ok_bind, List.length_map]
  have := fun gs hs' (hg : gs.length = indexes.length) (hh : hs'.length = indexes.length) eq st =>
    C98_quadratic_residues h hs (quadRaw E pf a b r) pf.a pf.b pf.r ha hb hr gs hs' indexes.length eq st none none h1
      (by omega) hg hh (by simp) (by simp)
  rw [show quadWith (quadRaw E pf a b r) pf.a pf.b pf.r = quadBytes E pf from rfl] at this
  unfold quadRaw at this
  rw [this _ _ (by simp) (by simp), C97_quadratic_refines h hs]

end

/-! ### What can be extracted -/

section
variable {K G : Type} [AddCommGroup K] [DecidableEq G] [AddCommGroup G] [Module (ZMod order) G]
  {S : Sodium} {enc : K → Bytes} {dec : Bytes → Option K} {ι : G →+ K} {base : G}

/-- A prover of a linear statement that can answer enough challenges with any bytes whatsoever knows an
opening of the commitment that satisfies the claim, and this function computes it. -/
theorem C99_linear_extract (h : CurveOk S enc dec ι base) (hT : IgnoresTopBit S) (gs : List G)
    (bs : List (ZMod order)) (eq : ZMod order) (off : Option (List (ZMod order))) (C : Bytes) (Fg : G)
    (t : LinTreeR) (hn1 : 1 ≤ gs.length) (hn2 : gs.length ≤ 2 ^ 63) (hb : bs.length = gs.length)
    (ho : ∀ o, off = some o → o.length = gs.length)
    (ht : t.Accepted S enc ι base gs bs eq off C Fg [] [] []) :
    let a := ((t.answers off).extract).2.take gs.length
    let r := ((t.answers off).extract).1
    a.length = gs.length ∧ ∃ P : G, dec C = some (ι P) ∧
      P + eq • Fg = r • base + mexp a gs + mexp (off.getD []) gs + dot a bs • Fg := by
  obtain ⟨C', Ls', Rs', t', h1, h2, h3, h4, h5⟩ := linTreeR_tree h hT hn1 hn2 hb ho t [] [] [] ht rfl rfl
  obtain rfl := List.map_eq_nil_iff.1 h2.symm
  obtain rfl := List.map_eq_nil_iff.1 h3.symm
  have := C13_linear_extract base gs bs eq off C' Fg t' hn1 hn2 hb ho h4
  rw [h5] at this
  exact ⟨this.1, C', h1, this.2⟩

/-- For quadratic statements (over a power of two many generators): if the errors in the answers are
always `e` and `e'`, then what is extracted satisfies the claim, but it opens the commitment only up to
these errors in the coefficients of the first generators. -/
theorem C99_quadratic_extract (h : CurveOk S enc dec ι base) (hT : IgnoresTopBit S) (gs hs : List G)
    (eq : ZMod order) (u v : Option (List (ZMod order))) (e e' : ZMod order) (C : Bytes) (Fg : G)
    (t : QuadTreeR) (k : ℕ) (hk : k ≤ 63) (hg : gs.length = 2 ^ k) (hh : hs.length = 2 ^ k)
    (hu : ∀ o, u = some o → o.length = 2 ^ k) (hv : ∀ o, v = some o → o.length = 2 ^ k)
    (ht : t.Accepted S enc ι base gs hs eq u v e e' C Fg [] [] []) :
    let a := (List.range (2 ^ k)).map (t.answers.extract k).2.2.1
    let b := (List.range (2 ^ k)).map (t.answers.extract k).2.2.2
    let r := (t.answers.extract k).1
    let c := (t.answers.extract k).2.1
    (∃ P : G, dec C = some (ι P) ∧ P + eq • Fg = r • base + mexp (addFirst e a) gs + mexp (u.getD []) gs +
      mexp (addFirst e' b) hs + mexp (v.getD []) hs + c • Fg) ∧
    (∀ ρ ∈ t.answers.relations k, ρ.1 • base + ρ.2.1 • Fg + mexp ((List.range (2 ^ k)).map ρ.2.2.1) gs
      + mexp ((List.range (2 ^ k)).map ρ.2.2.2) hs = 0) ∧
    ((∀ ρ ∈ t.answers.relations k, ρ.Trivial (2 ^ k)) → c = dot a b) := by
  have hp1 : 1 ≤ gs.length := by rw [hg]; exact Nat.one_le_two_pow
  have hp2 : gs.length ≤ 2 ^ 63 := by rw [hg]; exact Nat.pow_le_pow_right (by norm_num) hk
  obtain ⟨C', Ls', Rs', t', h1, h2, h3, h4, h5, h6⟩ := quadTreeR_tree h hT hp1 hp2 (by rw [hh, hg])
    (by rw [hg]; exact hu) (by rw [hg]; exact hv) t [] [] [] ht rfl rfl
  obtain rfl := List.map_eq_nil_iff.1 h2.symm
  obtain rfl := List.map_eq_nil_iff.1 h3.symm
  obtain ⟨q1, q2, q3⟩ := C57_quadratic_extract base gs hs eq u v _ Fg t' k hk hg hh hu hv h4
  rw [h5] at q1 q3
  rw [h6] at q2 q3
  refine ⟨⟨C', h1, ?_⟩, q2, q3⟩
  rw [mexp_addFirst _ _ _ (by simp [hg]), mexp_addFirst _ _ _ (by simp [hh])]
  rw [sub_sub, sub_add_eq_add_sub, sub_eq_iff_eq_add] at q1
  rw [q1]
  abel

end

/-! ### The hypotheses can be met -/

theorem one_ne_top : (1 : ZMod order) ≠ 2 ^ 255 := by
  have h : ((2 ^ 255 - 1 : ℕ) : ZMod order) ≠ 0 := by
    rw [Ne, cast_zero_iff]
    decide +kernel
  intro h'
  apply h
  rw [Nat.cast_sub Nat.one_le_two_pow, Nat.cast_pow, Nat.cast_one, h']
  exact sub_self _

example : ∃ a, EncodesTop a 1 true ∧ ((number a % 2 ^ 255 : ℕ) : ZMod order) ≠ 0 := C99_encodings 1 one_ne_top

theorem toy_one (C r a b : ZMod order) : ∃ pf : QuadPf (ZMod order) (ZMod order),
    proveQuadratic toyCurveEnv (fun _ => (1, 2)) ⟨[], C, [], [], 0, 0, 0, 0, 0⟩ r () [3] [a] [3] [b] 1 = .ok (pf, ()) ∧
      pf.a = a + 1 ∧ pf.b = b + 2 := by
  have hl : ∀ (Fg : ZMod order) (m : ℕ) (s : QuadProverState (ZMod order) (ZMod order) Unit),
      proveQuadLoop toyCurveEnv (fun _ => (1, 2)) Fg 1 m s = .ok s := by
    intro Fg m s
    unfold proveQuadLoop
    rw [if_neg (by norm_num)]
  unfold proveQuadratic
  simp [hl, rd, Env.newChallenge]

/-- The committed vectors are (2) and (5), their product is 10.  A proof that it is `10 + 5 * 2^255`, which
is another number modulo the order, is accepted. -/
example : ∃ pf : QuadPfR, pf.C = toyCurveEnv.pointBytes (4 • 1 + 2 * 3 + 5 * 3) ∧
    verifyQuadraticTagR toyCurveEnv toyCurve ⟨[7], 10 + 2 ^ 255 * 5⟩ pf = .ok true ∧
    (10 : ZMod order) ≠ 10 + 2 ^ 255 * 5 := by
  obtain ⟨q, hq, ha, -⟩ := toy_one ((4 : ZMod order) • 1 + 2 * 3 + 5 * 3) 4 (2 + 2 ^ 255) 5
  obtain ⟨h1, h2, -, a, -, h3⟩ := C99_tag_forgery (E := toyCurveEnv) toyCurveEnv_curve.toSodiumOk isScalar_bytes
    toyCurve_top (fun _ => (1, 2)) [] 4 ⟨[7], 10 + 2 ^ 255 * 5⟩ [2] [5] ((4 : ZMod order) • 1 + 2 * 3 + 5 * 3) q ()
    (by simp) (by simp) rfl rfl (by
      have h : ((5 : ℕ) : ZMod order) ≠ 0 := by
        rw [Ne, cast_zero_iff]
        decide +kernel
      exact h) (by simp [mexp, Env.getG, Env.getH]) (by simp [dot]; norm_num) hq (by
      rw [ha]
      intro h
      have h' : ((3 : ℕ) : ZMod order) = 0 := by
        push_cast
        linear_combination h
      exact absurd ((cast_zero_iff 3).1 h') (by decide +kernel))
  refine ⟨_, ?_, h3, ?_⟩
  · rw [quadRaw, h2]
    congr 1
  · intro h
    apply h1
    simp [dot]
    rw [← h]
    norm_num

/-- The number `15 * order + 1`, and the offset -1: their sum as numbers is at least `2^256`. -/
def carryA : Bytes := zzBytes 32 ((15 * order + 1 : ℕ) : ℤ)

theorem number_carryA : number carryA = 15 * order + 1 := by
  unfold carryA
  rw [← leVal_eq, zzBytes_val, Int.natAbs_natCast]
  exact Nat.mod_eq_of_lt (by unfold order; norm_num)

/-- The committed vectors are (`-2^256`) and (5).  A proof that their product is 0 is accepted. -/
example : ∃ pf : QuadPfR,
    verifyQuadraticR toyCurveEnv toyCurve pf ([3].map toyCurveEnv.pointBytes) ([3].map toyCurveEnv.pointBytes) 1
      (dot [-2 ^ 256] [5] + 2 ^ 256 * 5) () (some [-1]) (some [4]) = .ok (true, ()) := by
  obtain ⟨w, hw⟩ : ∃ w : ZMod order, w = 2 ^ 256 := ⟨_, rfl⟩
  obtain ⟨q, hq, ha, -⟩ := toy_one ((0 : ZMod order) • 1 + mexp [-w] [3] + mexp [(5 : ZMod order)] [3] +
    mexp [(-1 : ZMod order)] [3] + mexp [(4 : ZMod order)] [3]) 0 (-w + w) 5
  have hv : ((-1 : ZMod order)).val = order - 1 := by
    have h : (-1 : ZMod order) = ((order - 1 : ℕ) : ZMod order) := by
      rw [Nat.cast_sub (by unfold order; norm_num), ZMod.natCast_self, Nat.cast_one, zero_sub]
    rw [h, ZMod.val_natCast, Nat.mod_eq_of_lt (by unfold order; norm_num)]
  have hq' : proveQuadratic toyCurveEnv (fun _ => (1, 2)) ⟨[], (0 : ZMod order) • 1 + mexp [-w] [3] +
      mexp [(5 : ZMod order)] [3] + mexp [(-1 : ZMod order)] [3] + mexp [(4 : ZMod order)] [3], [], [], 0, 0, 0, 0, 0⟩ 0
      () [3] (addFirst (2 ^ 256) [-w]) [3] [5] 1 = .ok (q, ()) := by
    rw [← hw]
    exact hq
  have h := C99_offset_forgery (E := toyCurveEnv) toyCurveEnv_curve.toSodiumOk isScalar_bytes
    toyCurve_top (fun _ => (1, 2)) ⟨[], (0 : ZMod order) • 1 + mexp [-w] [3] + mexp [(5 : ZMod order)] [3] +
    mexp [(-1 : ZMod order)] [3] + mexp [(4 : ZMod order)] [3], [], [], 0, 0, 0, 0, 0⟩ q 0 () () [-w] [5] [-1] [4] [3] [3] 1
    (by norm_num) (by norm_num) rfl rfl rfl rfl rfl rfl rfl rfl rfl hq' carryA (scalarBytes q.b 32) (scalarBytes q.r 32)
    (zzBytes_length _ _) (by
      rw [ha, number_carryA, Nat.cast_add, Nat.cast_mul, ZMod.natCast_self, mul_zero, Nat.cast_one]
      ring) (by
      rw [List.headD_cons, hv, number_carryA]
      unfold order
      norm_num) (isScalar_bytes _) (isScalar_bytes _)
  rw [hw] at h
  exact ⟨_, h⟩

/-! Three conversations with the commitment 3 to the vector (1), of which the last uses the top bit. -/

/-- The environment in which the last challenge is `x`. -/
abbrev toyAt (x : ZMod order) : Env (ZMod order) (ZMod order) := { toyCurveEnv with scalarReduce := fun _ => x }

theorem toyLin_accepted (x α ρ : ZMod order) (a r : Bytes) (hx : x ≠ 0) (ha : a.length = 32) (hr : r.length = 32)
    (hα : α = ((number a : ℕ) : ZMod order)) (hρ : ρ = ((number r % 2 ^ 255 : ℕ) : ZMod order))
    (ha0 : number a = 0 ∨ ((number a % 2 ^ 255 : ℕ) : ZMod order) ≠ 0)
    (hr0 : number r = 0 ∨ ((number r % 2 ^ 255 : ℕ) : ZMod order) ≠ 0)
    (he : 5 + x * 5 = ρ + α * 2 + (α * 3 + topErr a * 3)) :
    LinAcceptedR toyCurve toyEnc toyIota 1 [3] [1] 1 none (toyEnc (toyIota 3)) (2 : ZMod order) [] [] []
      (toyEnc (toyIota 5)) x a r := by
  refine ⟨ha, hr, toyAt x, [], (), (), rfl, rfl, isScalar_bytes, rfl, rfl, rfl, ?_⟩
  have hl : log2roundUp 1 = 0 := by decide
  obtain ⟨b, hb, hiff⟩ := C98_linear_exact (E := toyAt x) (S := toyCurve) toyCurveEnv_curve.toSodiumOk isScalar_bytes
    toyCurve_top ⟨[], 3, [], [], 5, α, ρ⟩ a r ha hr hα hρ none (fun _ => ha0) hr0 [1] [3] 1 1 () (by norm_num)
    (by norm_num) rfl rfl (by simp) hl.symm hl.symm (by simp [deriveLin, foldChallenges])
    (by simpa [deriveLin, foldChallenges] using hx)
  refine hb.trans ?_
  have : b = true := hiff.2 (by
    rw [Option.map_none, firstErr]
    simp [LinEqErr, deriveLin, foldChallenges, foldedSum, subsetProd]
    linear_combination he)
  rw [this]

theorem small_ne (n : ℕ) (h : n % order ≠ 0) : ((n : ℕ) : ZMod order) ≠ 0 := fun h' => h ((cast_zero_iff n).1 h')

/-- The scalars 4 with the top bit. -/
noncomputable def topFour : Bytes := (encodesTop_exists 4 true).choose

theorem topFour_spec : EncodesTop topFour 4 true := (encodesTop_exists 4 true).choose_spec

theorem toyLin_low (x : ZMod order) (hx : x ≠ 0) (h1 : 1 + x ≠ 0) :
    LinAcceptedR toyCurve toyEnc toyIota 1 [3] [1] 1 none (toyEnc (toyIota 3)) (2 : ZMod order) [] [] []
      (toyEnc (toyIota 5)) x (scalarBytes (1 + x) 32) (scalarBytes (0 : ZMod order) 32) := by
  obtain ⟨a1, a2, a3, a4, a5⟩ := isScalar_low (isScalar_bytes (1 + x))
  obtain ⟨r1, r2, r3, r4, r5⟩ := isScalar_low (isScalar_bytes (0 : ZMod order))
  refine toyLin_accepted x (1 + x) 0 _ _ hx a1 r1 a2.symm r3.symm a4 r4 ?_
  rw [encodesTop_err a5, topValue, if_neg (by simp)]
  ring

/-- The answer that makes up for the error. -/
def topR : Bytes := scalarBytes (3 * 2 ^ 255 : ZMod order) 32

theorem toyLin_top :
    LinAcceptedR toyCurve toyEnc toyIota 1 [3] [1] 1 none (toyEnc (toyIota 3)) (2 : ZMod order) [] [] []
      (toyEnc (toyIota 5)) 3 topFour topR := by
  obtain ⟨ρ, hρ⟩ : ∃ ρ : ZMod order, ρ = 3 * 2 ^ 255 := ⟨_, rfl⟩
  have hR : topR = scalarBytes ρ 32 := by rw [topR, hρ]
  obtain ⟨r1, r2, r3, r4, r5⟩ := isScalar_low (isScalar_bytes ρ)
  have h4 : (4 : ZMod order) ≠ 2 ^ 255 := by
    intro h
    have : ((2 ^ 255 - 4 : ℕ) : ZMod order) = 0 := by
      rw [Nat.cast_sub (by norm_num), Nat.cast_pow, Nat.cast_ofNat, Nat.cast_ofNat, h]
      exact sub_self _
    exact small_ne _ (by decide +kernel) this
  have h3 : (3 : ZMod order) ≠ 0 := small_ne 3 (by decide +kernel)
  have he : (5 : ZMod order) + 3 * 5 = ρ + 4 * 2 + (4 * 3 + topErr topFour * 3) := by
    rw [encodesTop_err topFour_spec, topValue, if_pos rfl, hρ]
    generalize (2 : ZMod order) ^ 255 = c
    ring
  rw [hR]
  exact toyLin_accepted 3 4 ρ _ _ h3 topFour_spec.1 r1 topFour_spec.2.1.symm
    r3.symm (Or.inr (encodesTop_low topFour_spec h4)) r4 he

/-- The three conversations. -/
noncomputable def topLinTree : LinTreeR :=
  LinTreeR.leaf (toyEnc (toyIota 5)) ![1, 2, 3]
      ![scalarBytes (1 + 1 : ZMod order) 32, scalarBytes (1 + 2 : ZMod order) 32, topFour]
      ![scalarBytes (0 : ZMod order) 32, scalarBytes (0 : ZMod order) 32,
        topR]

/-- All three are accepted, and the opening extracted from them is one of the commitment 3. -/
example : ∃ (r : ZMod order) (a : List (ZMod order)), r = ((topLinTree.answers none).extract).1 ∧ a.length = 1 ∧
      (3 : ZMod order) + 1 * 2 = r + mexp a [3] + dot a [1] * 2 := by
  have hacc : topLinTree.Accepted toyCurve toyEnc toyIota 1 [3] [1] 1 none
      (toyEnc (toyIota 3)) (2 : ZMod order) [] [] [] := by
    have h2 : (1 + 1 : ZMod order) ≠ 0 := by
      have := small_ne 2 (by decide +kernel)
      push_cast at this
      rw [one_add_one_eq_two]
      exact this
    have h3 : (1 + 2 : ZMod order) ≠ 0 := by
      have := small_ne 3 (by decide +kernel)
      push_cast at this
      intro h
      apply this
      linear_combination h
    refine ⟨?_, fun i => ?_⟩
    · have e12 : (1 : ZMod order) ≠ 2 := fun h => one_ne_zero (α := ZMod order) (by linear_combination -h)
      have e23 : (2 : ZMod order) ≠ 3 := fun h => one_ne_zero (α := ZMod order) (by linear_combination -h)
      have e13 : (1 : ZMod order) ≠ 3 := fun h => h2 (by linear_combination -h)
      intro i j hij
      fin_cases i <;> fin_cases j <;> simp_all
    · fin_cases i
      · exact toyLin_low 1 one_ne_zero h2
      · exact toyLin_low 2 (by rw [← one_add_one_eq_two]; exact h2) h3
      · exact toyLin_top
  obtain ⟨h1, P, h2, h3⟩ := C99_linear_extract toyCurveEnv_curve toyCurve_top [3] [1] 1 none _ 2 _ (by simp)
    (by norm_num) rfl (by simp) hacc
  rw [toyDec_enc] at h2
  obtain rfl : P = 3 := congrArg Prod.fst (Option.some.inj h2).symm
  simp only [Option.getD_none, mexp_nil_left, add_zero, smul_eq_mul] at h3
  rw [mul_one] at h3
  exact ⟨_, _, rfl, h1, h3⟩

/-! Five conversations with the commitment 8 to the vectors (1) and (1), for the claim that their product is
`1 + 2^255`. -/

theorem toyQuad_top (x : ZMod order) (hx : x + x * x ≠ 0) :
    QuadAcceptedR toyCurve toyEnc toyIota 1 [3] [5] (1 + 2 ^ 255) none none (toyEnc (toyIota 8)) (2 : ZMod order)
      [] [] [] (toyEnc (toyIota 1)) (toyEnc (toyIota 1)) x topA (scalarBytes (1 : ZMod order) 32)
      (scalarBytes (x + x * x) 32) := by
  obtain ⟨b1, b2, b3, b4, b5⟩ := isScalar_low (isScalar_bytes (1 : ZMod order))
  obtain ⟨r1, r2, r3, r4, r5⟩ := isScalar_low (isScalar_bytes (x + x * x))
  have hA : ((number topA : ℕ) : ZMod order) = 1 + 2 ^ 255 := by
    rw [number_topA, Nat.cast_add, Nat.cast_pow, add_comm, Nat.cast_one, Nat.cast_ofNat]
  have hA' : (number topA % 2 ^ 255 : ℕ) = 1 := by
    rw [number_topA, Nat.add_mod_left]
    exact Nat.mod_eq_of_lt (by norm_num)
  refine ⟨zzBytes_length _ _, b1, r1, toyAt x, [], (), (), rfl, rfl, isScalar_bytes, rfl, rfl, rfl, ?_⟩
  have hl : log2roundUp 1 = 0 := by decide
  obtain ⟨c, hc, hiff⟩ := C98_quadratic_exact (E := toyAt x) (S := toyCurve) toyCurveEnv_curve.toSodiumOk
    isScalar_bytes toyCurve_top ⟨[], 8, [], [], 1, 1, 1 + 2 ^ 255, 1, x + x * x⟩ topA _ _ (zzBytes_length _ _) b1 r1
    hA.symm b2.symm r3.symm none none (fun _ => Or.inr (by rw [hA']; simp)) (fun _ => b4) r4 [3] [5] 1
    (1 + 2 ^ 255) () (by norm_num) (by norm_num) rfl rfl (by simp) (by simp) hl.symm hl.symm
    (by simp [deriveQuad, foldChallenges])
  refine hc.trans ?_
  have : c = true := hiff.2 (by
    rw [firstErr, firstErr, topErr_topA, encodesTop_err b5, topValue, if_neg (by simp)]
    generalize (2 : ZMod order) ^ 255 = d
    simp [QuadEqErr, deriveQuad, foldChallenges, foldedSum, subsetProd]
    ring)
  rw [this]

/-- The five conversations. -/
def topQuadTree : QuadTreeR :=
  QuadTreeR.leaf (toyEnc (toyIota 1)) (toyEnc (toyIota 1)) (fun i => ((i.val + 1 : ℕ) : ZMod order))
      (fun _ => topA) (fun _ => scalarBytes (1 : ZMod order) 32)
      (fun i => scalarBytes
        (((i.val + 1 : ℕ) : ZMod order) + ((i.val + 1 : ℕ) : ZMod order) * ((i.val + 1 : ℕ) : ZMod order)) 32)

/-- All are accepted.  What is extracted is not an opening of 8, but one of `8 + 3 * 2^255`. -/
example : ∃ (a b : List (ZMod order)) (r c : ZMod order),
    a = (List.range (2 ^ 0)).map (topQuadTree.answers.extract 0).2.2.1 ∧
      b = (List.range (2 ^ 0)).map (topQuadTree.answers.extract 0).2.2.2 ∧
      8 + (1 + 2 ^ 255) * 2 = r + mexp (addFirst (-2 ^ 255) a) [3] + mexp b [5] + c * 2 := by
  have hacc : topQuadTree.Accepted
      toyCurve toyEnc toyIota 1 [3] [5] (1 + 2 ^ 255) none none (-2 ^ 255) 0
      (toyEnc (toyIota 8)) (2 : ZMod order) [] [] [] := by
    have ho : 1000 < order := by unfold order; norm_num
    refine ⟨fun i j hij => ?_, fun i => ⟨topErr_topA, ?_, toyQuad_top _ ?_⟩⟩
    · have hij' : ((i.val + 1 : ℕ) : ZMod order) = ((j.val + 1 : ℕ) : ZMod order) := hij
      rw [ZMod.natCast_eq_natCast_iff', Nat.mod_eq_of_lt (by omega), Nat.mod_eq_of_lt (by omega)] at hij'
      exact Fin.ext (by omega)
    · exact firstErr_low (not_le.1 fun h => by
        have := (isScalar_low (isScalar_bytes (1 : ZMod order))).2.2.2.2.2.2.2 h
        simp at this) none
    · rw [← Nat.cast_mul, ← Nat.cast_add]
      have hi := i.isLt
      have : (i.val + 1) * (i.val + 1) ≤ 5 * 5 := Nat.mul_le_mul (by omega) (by omega)
      refine small_ne _ ?_
      rw [Nat.mod_eq_of_lt (by omega)]
      omega
  obtain ⟨⟨P, h1, h2⟩, -, -⟩ := C99_quadratic_extract toyCurveEnv_curve toyCurve_top [3] [5] (1 + 2 ^ 255) none none
    (-2 ^ 255) 0 _ 2 _ 0 (by norm_num) rfl rfl (by simp) (by simp) hacc
  rw [toyDec_enc] at h1
  obtain rfl : P = 8 := congrArg Prod.fst (Option.some.inj h1).symm
  refine ⟨_, _, (topQuadTree.answers.extract 0).1, (topQuadTree.answers.extract 0).2.1, rfl, rfl, ?_⟩
  have hz : ∀ l : List (ZMod order), addFirst 0 l = l := by
    intro l
    cases l <;> simp [addFirst]
  rw [hz] at h2
  simp only [Option.getD_none, mexp_nil_left, add_zero, smul_eq_mul] at h2
  rw [mul_one] at h2
  exact h2

end Verif.Props
