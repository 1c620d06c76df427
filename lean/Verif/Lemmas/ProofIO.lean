import Verif.Model.ProofIO
import Verif.Spec.ProofIO
import Verif.Props.Scalar
import Mathlib.Data.List.TakeWhile

namespace Verif.IO
open Spec.IO

theorem isSpace_iff (b : UInt8) : isSpace b = true ↔ Space b := by
  revert b; unfold Space; decide +kernel

theorem isDigit_iff (b : UInt8) : isDigit b = true ↔ Digit b := by
  revert b; unfold Digit; decide +kernel

/-! ### Runs of a predicate -/

theorem takeWhile_split {p : UInt8 → Bool} {a b : Bytes} (ha : ∀ x ∈ a, p x = true)
    (hb : ∀ x t, b = x :: t → p x = false) :
    (a ++ b).takeWhile p = a ∧ (a ++ b).dropWhile p = b := by
  induction a with
  | nil =>
    cases b with
    | nil => simp
    | cons x t => simp [hb x t rfl]
  | cons y a ih =>
    have := ih fun x hx => ha x (by simp [hx])
    simp [ha y (by simp), this]

theorem takeWhile_all {p : UInt8 → Bool} {a b : Bytes} (ha : ∀ x ∈ a, p x = true) :
    (a ++ b).takeWhile p = a ++ b.takeWhile p ∧ (a ++ b).dropWhile p = b.dropWhile p := by
  induction a with
  | nil => simp
  | cons y a ih =>
    have := ih fun x hx => ha x (by simp [hx])
    simp [ha y (by simp), this]

theorem dropWhile_self {p : UInt8 → Bool} {a : Bytes} (h : ∀ x t, a = x :: t → p x = false) : a.dropWhile p = a := by
  cases a with
  | nil => rfl
  | cons x t => simp [h x t rfl]

theorem head_of_dropWhile {p : UInt8 → Bool} {a : Bytes} (h : a.dropWhile p = a) :
    ∀ x t, a = x :: t → p x = false := by
  rintro x t rfl
  by_contra hc
  have hp : p x = true := by simpa using hc
  rw [List.dropWhile_cons_of_pos hp] at h
  have := congrArg List.length h
  have h2 := (t.dropWhile_suffix p).length_le
  simp only [List.length_cons] at this
  omega

/-! ### Decimal numbers -/

theorem decVal_append (a b : Bytes) : decVal (a ++ b) = decVal a * 10 ^ b.length + decVal b := by
  have key : ∀ (b : Bytes) (v : ℕ), b.foldl (fun a b => a * 10 + (b.toNat - 48)) v = v * 10 ^ b.length + decVal b := by
    intro b
    induction b with
    | nil => intro v; simp [decVal]
    | cons x b ih =>
      intro v
      unfold decVal
      rw [List.foldl_cons, List.foldl_cons, ih, ih (0 * 10 + _)]
      simp only [List.length_cons]
      ring
  unfold decVal
  rw [List.foldl_append, key]
  rfl

theorem decVal_decBytes (n : ℕ) : decVal (decBytes n) = n := by
  induction n using Nat.strong_induction_on with
  | _ n ih =>
    rw [decBytes]
    split
    case isTrue h =>
      unfold decVal
      simp only [List.foldl_cons, List.foldl_nil, UInt8.toNat_ofNat']
      omega
    case isFalse h =>
      rw [decVal_append, ih _ (by omega)]
      unfold decVal
      simp only [List.foldl_cons, List.foldl_nil, UInt8.toNat_ofNat', List.length_cons, List.length_nil]
      omega

theorem decBytes_isDigit (n : ℕ) : ∀ c ∈ decBytes n, isDigit c = true := by
  intro c hc
  rw [isDigit_iff]
  exact Props.decBytes_digits n c hc

theorem digit_not_space {c : UInt8} (h : isDigit c = true) : isSpace c = false := by
  revert c; decide +kernel

theorem digit_not_sign {c : UInt8} (h : isDigit c = true) : c ≠ 45 ∧ c ≠ 43 := by
  revert c; decide +kernel

/-! ### Reading -/

theorem skip_id {b : Bytes} (hb : b ≠ []) (h : ∀ x t, b = x :: t → isSpace x = false) :
    (⟨b, true⟩ : IStream).skip = ⟨b, true⟩ := by
  unfold IStream.skip
  simp only [if_true]
  rw [dropWhile_self h]
  simp [hb]

/-- A number followed by anything. -/
theorem getNat_dec (old : Option ℕ) (k : ℕ) (X : Bytes) :
    getNat old ⟨decBytes k ++ X, true⟩ =
      if 2 ^ 64 ≤ k * 10 ^ (X.takeWhile isDigit).length + decVal (X.takeWhile isDigit) then
        (some (2 ^ 64 - 1), ⟨X.dropWhile isDigit, false⟩)
      else (some (k * 10 ^ (X.takeWhile isDigit).length + decVal (X.takeWhile isDigit)),
        ⟨X.dropWhile isDigit, !(X.dropWhile isDigit).isEmpty⟩) := by
  obtain ⟨c, t, hct⟩ : ∃ c t, decBytes k = c :: t := List.exists_cons_of_ne_nil (Props.decBytes_ne_nil k)
  have hc : isDigit c = true := decBytes_isDigit k c (by rw [hct]; simp)
  have hs : (⟨decBytes k ++ X, true⟩ : IStream).skip = ⟨decBytes k ++ X, true⟩ := by
    apply skip_id
    · simp [hct]
    · intro x t' e
      rw [hct] at e
      have : c = x := (List.cons.inj e).1
      rw [← this]
      exact digit_not_space hc
  unfold getNat
  rw [hs]
  have h0 : (decBytes k ++ X).head? = some c := by rw [hct]; rfl
  have h1 : (some c == some (45 : UInt8)) = false := by simp [(digit_not_sign hc).1]
  have h2 : (some c == some (43 : UInt8)) = false := by simp [(digit_not_sign hc).2]
  simp only [if_true, h0, h1, h2, Bool.or_self, Bool.false_eq_true, if_false]
  obtain ⟨e1, e2⟩ := takeWhile_all (b := X) (decBytes_isDigit k)
  rw [e1, e2, decVal_append, decVal_decBytes, hct]
  simp

theorem getRaw_ok (o x : Bytes) (hx : x.length = 32) (X : Bytes) : getRaw o ⟨x ++ X, true⟩ = (x, ⟨X, true⟩) := by
  unfold getRaw
  simp [← hx]

theorem getRaws_ok : ∀ (os xs : List Bytes), os.length = xs.length → (∀ x ∈ xs, x.length = 32) → ∀ X,
    getRaws os ⟨xs.flatten ++ X, true⟩ = (xs, ⟨X, true⟩)
  | [], [], _, _, X => by simp [getRaws]
  | o :: os, x :: xs, hl, hx, X => by
    unfold getRaws
    rw [List.flatten_cons, List.append_assoc, getRaw_ok o x (hx x (by simp))]
    simp only
    rw [getRaws_ok os xs (by simpa using hl) (fun y hy => hx y (by simp [hy]))]

theorem getRaw_good {o : Bytes} {s s' : IStream} {x : Bytes} (h : getRaw o s = (x, s')) (hg : s'.good = true) :
    s.good = true ∧ s.buf = x ++ s'.buf ∧ x.length = 32 := by
  unfold getRaw at h
  by_cases h1 : s.good = true
  · rw [if_pos h1] at h
    by_cases h2 : 32 ≤ s.buf.length
    · rw [if_pos h2] at h
      obtain ⟨e1, e2⟩ := Prod.mk.inj h
      rw [← e1, ← e2]
      exact ⟨h1, (List.take_append_drop _ _).symm, by simp [h2]⟩
    · rw [if_neg h2] at h
      obtain ⟨e1, e2⟩ := Prod.mk.inj h
      rw [← e2] at hg
      cases hg
  · rw [if_neg h1] at h
    obtain ⟨e1, e2⟩ := Prod.mk.inj h
    rw [← e2] at hg
    exact absurd hg h1

theorem getRaws_length : ∀ (os : List Bytes) (s : IStream), (getRaws os s).1.length = os.length
  | [], s => rfl
  | o :: os, s => by
    unfold getRaws
    simp [getRaws_length os]

theorem getRaws_good : ∀ {os : List Bytes} {s s' : IStream} {xs : List Bytes}, getRaws os s = (xs, s') →
    s'.good = true → s.good = true ∧ s.buf = xs.flatten ++ s'.buf
  | [], s, s', xs, h, hg => by
    obtain ⟨e1, e2⟩ := Prod.mk.inj h
    rw [← e1, e2]
    exact ⟨hg, rfl⟩
  | o :: os, s, s', xs, h, hg => by
    unfold getRaws at h
    obtain ⟨x, s1, h1⟩ : ∃ x s1, getRaw o s = (x, s1) := ⟨_, _, rfl⟩
    obtain ⟨ys, s2, h2⟩ : ∃ ys s2, getRaws os s1 = (ys, s2) := ⟨_, _, rfl⟩
    rw [h1] at h
    simp only at h
    rw [h2] at h
    simp only at h
    obtain ⟨e1, e2⟩ := Prod.mk.inj h
    subst e2
    obtain ⟨a1, a2⟩ := getRaws_good h2 hg
    obtain ⟨b1, b2, -⟩ := getRaw_good h1 a1
    refine ⟨b1, ?_⟩
    rw [← e1, List.flatten_cons, b2, a2, List.append_assoc]

theorem skip_good {s : IStream} (h : s.skip.good = true) : s.good = true ∧ s.skip.buf = s.buf.dropWhile isSpace ∧
    s.skip.buf ≠ [] := by
  unfold IStream.skip at h ⊢
  by_cases hs : s.good = true
  · rw [if_pos hs] at h ⊢
    simp only [Bool.not_eq_true', List.isEmpty_eq_false_iff] at h
    exact ⟨hs, rfl, h⟩
  · rw [if_neg hs] at h
    exact absurd h hs

/-- A successful number uses up at least one byte. -/
theorem getNat_good {old n : Option ℕ} {s s' : IStream} (h : getNat old s = (n, s')) (hg : s'.good = true) :
    s.good = true ∧ s'.buf.length < s.buf.length := by
  unfold getNat at h
  by_cases hs : s.skip.good = true
  · obtain ⟨a1, a2, a3⟩ := skip_good hs
    refine ⟨a1, ?_⟩
    have hl : s.skip.buf.length ≤ s.buf.length := by
      rw [a2]; exact (s.buf.dropWhile_suffix _).length_le
    simp only [hs, if_true] at h
    generalize hb : (if s.skip.buf.head? == some 45 || s.skip.buf.head? == some 43 then s.skip.buf.tail
      else s.skip.buf) = b at h
    have hbl : b.length ≤ s.skip.buf.length := by
      rw [← hb]
      split
      · simp
      · exact le_refl _
    split at h
    · obtain ⟨-, e⟩ := Prod.mk.inj h
      rw [← e] at hg; cases hg
    · split at h
      · obtain ⟨-, e⟩ := Prod.mk.inj h
        rw [← e] at hg; cases hg
      case isFalse he _ =>
        obtain ⟨-, e⟩ := Prod.mk.inj h
        rw [← e]
        simp only
        have h1 : (b.takeWhile isDigit).length + (b.dropWhile isDigit).length = b.length := by
          rw [← List.length_append, List.takeWhile_append_dropWhile]
        have h2 : 0 < (b.takeWhile isDigit).length := by
          rw [List.length_pos_iff]
          simpa using he
        omega
  · simp only [hs, if_false] at h
    obtain ⟨-, e⟩ := Prod.mk.inj h
    rw [← e] at hg
    exact absurd hg hs

theorem resize_length (v : List Bytes) (n : ℕ) (d : Bytes) : (resize v n d).length = n := by
  unfold resize
  simp only [List.length_append, List.length_take, List.length_replicate]
  omega

theorem getVec_ok (maxLen : ℕ) (d : Bytes) (v : List Bytes) (n : Option ℕ) (xs : List Bytes)
    (hx : ∀ x ∈ xs, x.length = 32) (hm : xs.length ≤ maxLen) (h64 : xs.length < 2 ^ 64) (X : Bytes)
    (hX : xs.flatten ++ X ≠ []) (hd : ∀ c t, xs.flatten ++ X = c :: t → isDigit c = false) :
    getVec maxLen d v n ⟨decBytes xs.length ++ (xs.flatten ++ X), true⟩ = .ok (xs, some xs.length, ⟨X, true⟩) := by
  unfold getVec
  rw [getNat_dec]
  have e1 : (xs.flatten ++ X).takeWhile isDigit = [] := by
    have := (takeWhile_split (a := []) (b := xs.flatten ++ X) (p := isDigit) (by simp) hd).1
    simpa using this
  rw [e1, dropWhile_self hd]
  have e2 : decVal [] = 0 := rfl
  simp only [List.length_nil, pow_zero, mul_one, e2, add_zero]
  rw [if_neg (by omega)]
  simp only
  rw [if_neg (by omega)]
  have e3 : (!(xs.flatten ++ X).isEmpty) = true := by simpa using hX
  rw [e3, getRaws_ok _ xs (resize_length _ _ _) hx]

theorem getVec_good {maxLen : ℕ} {d : Bytes} {v xs : List Bytes} {n n' : Option ℕ} {s s' : IStream}
    (h : getVec maxLen d v n s = .ok (xs, n', s')) (hg : s'.good = true) :
    ∃ s1, getNat n s = (some xs.length, s1) ∧ s1.good = true ∧ s1.buf = xs.flatten ++ s'.buf := by
  unfold getVec at h
  obtain ⟨m, s1, h1⟩ : ∃ m s1, getNat n s = (m, s1) := ⟨_, _, rfl⟩
  rw [h1] at h
  simp only at h
  cases m with
  | none => cases h
  | some m =>
    simp only at h
    split at h
    · cases h
    · have h2 := Res.ok.inj h
      obtain ⟨e1, e2⟩ := Prod.mk.inj h2
      obtain ⟨-, e3⟩ := Prod.mk.inj e2
      have hl := getRaws_length (resize v m d) s1
      rw [e1, resize_length] at hl
      have hg' := getRaws_good (os := resize v m d) (s := s1) (s' := s') (xs := xs) (by rw [← e1, ← e3]) hg
      exact ⟨s1, by rw [h1, hl], hg'.1, hg'.2⟩

/-- The tag is read back exactly when it is a word followed by white space. -/
theorem getString_iff (old tag X : Bytes) (s' : IStream) :
    (getString old ⟨tag ++ X, true⟩ = (tag, s') ∧ s'.good = true) ↔
      (tag ≠ [] ∧ (∀ b ∈ tag, isSpace b = false) ∧ (∃ c t, X = c :: t ∧ isSpace c = true) ∧ s' = ⟨X, true⟩) := by
  constructor
  · rintro ⟨h, hg⟩
    unfold getString at h
    simp only at h
    by_cases hs : (⟨tag ++ X, true⟩ : IStream).skip.good = true
    · rw [if_pos hs] at h
      obtain ⟨-, a2, a3⟩ := skip_good hs
      obtain ⟨e1, e2⟩ := Prod.mk.inj h
      rw [a2] at e1 e2 a3
      simp only at e1 e2 a3
      have hns : ∀ b ∈ tag, isSpace b = false := by
        intro b hb
        rw [← e1] at hb
        have := List.mem_takeWhile_imp hb
        simpa using this
      have hne : tag ≠ [] := by
        obtain ⟨c, t, hc⟩ := List.exists_cons_of_ne_nil a3
        have hcs : isSpace c = false := by
          have := List.head?_dropWhile_not isSpace (tag ++ X)
          rw [hc] at this
          simpa using this
        rw [← e1, hc, List.takeWhile_cons_of_pos (by simp [hcs])]
        simp
      obtain ⟨c, t, hct⟩ := List.exists_cons_of_ne_nil hne
      have hid : (tag ++ X).dropWhile isSpace = tag ++ X := by
        apply dropWhile_self
        intro x t' e
        rw [hct] at e
        rw [← (List.cons.inj e).1]
        exact hns c (by rw [hct]; simp)
      rw [hid] at e1 e2
      obtain ⟨b1, b2⟩ := takeWhile_all (p := (!isSpace ·)) (a := tag) (b := X) (fun x hx => by simp [hns x hx])
      rw [b1] at e1
      rw [b2] at e2
      have hX : X.takeWhile (!isSpace ·) = [] := by simpa using e1
      have hX2 : X.dropWhile (!isSpace ·) = X := by
        have := List.takeWhile_append_dropWhile (p := (!isSpace ·)) (l := X)
        rw [hX] at this
        simpa using this
      rw [hX2] at e2
      have hXne : X ≠ [] := by
        rw [← e2] at hg
        simpa using hg
      obtain ⟨c', t', hc'⟩ := List.exists_cons_of_ne_nil hXne
      refine ⟨hne, hns, ⟨c', t', hc', ?_⟩, ?_⟩
      · have := head_of_dropWhile hX2 c' t' hc'
        simpa using this
      · rw [← e2]
        simp [hXne]
    · rw [if_neg hs] at h
      obtain ⟨-, e2⟩ := Prod.mk.inj h
      rw [← e2] at hg
      exact absurd hg hs
  · rintro ⟨hne, hns, ⟨c, t, hX, hc⟩, rfl⟩
    refine ⟨?_, rfl⟩
    have hs : (⟨tag ++ X, true⟩ : IStream).skip = ⟨tag ++ X, true⟩ := by
      obtain ⟨d, u, hdu⟩ := List.exists_cons_of_ne_nil hne
      apply skip_id
      · simp [hdu]
      · intro x t' e
        rw [hdu] at e
        rw [← (List.cons.inj e).1]
        exact hns d (by rw [hdu]; simp)
    unfold getString
    rw [hs]
    simp only [if_true]
    obtain ⟨b1, b2⟩ := takeWhile_split (p := (!isSpace ·)) (a := tag) (b := X) (fun x hx => by simp [hns x hx])
      (by
        intro x t' e
        rw [hX] at e
        rw [← (List.cons.inj e).1]
        simp [hc])
    rw [b1, b2]
    simp [hX]

/-- The part that both kinds of proofs share. -/
def getHead (maxLen : ℕ) (dflt : Bytes) (tag C : Bytes) (Ls Rs : List Bytes) (s : IStream) :
    Res (Bytes × Bytes × List Bytes × List Bytes × IStream) := do
  let (tag, s) := getString tag s
  let (C, s) := getRaw C s
  let (Ls, n, s) ← getVec maxLen dflt Ls none s
  let (Rs, _, s) ← getVec maxLen dflt Rs n s
  .ok (tag, C, Ls, Rs, s)

/-- Reading back the common part, in front of at least 32 more bytes, starting with those of `S`. -/
theorem getHead_iff (maxLen : ℕ) (dflt tag C tag0 C0 : Bytes) (Ls Rs Ls0 Rs0 : List Bytes) (S X : Bytes)
    (hC : C.length = 32) (hL : ∀ x ∈ Ls, x.length = 32) (hR : ∀ x ∈ Rs, x.length = 32) (hS : S.length = 32)
    (hm : Ls.length ≤ maxLen ∧ Rs.length ≤ maxLen) (h64 : Ls.length < 2 ^ 64 ∧ Rs.length < 2 ^ 64) :
    getHead maxLen dflt tag0 C0 Ls0 Rs0 ⟨tag ++ (C ++ (decBytes Ls.length ++ (Ls.flatten ++ (decBytes Rs.length ++
      (Rs.flatten ++ (S ++ X)))))), true⟩ = .ok (tag, C, Ls, Rs, ⟨S ++ X, true⟩) ↔ Readable tag C Ls Rs S := by
  have hcons : ∀ {x : Bytes}, x.length = 32 → ∃ c t, x = c :: t := by
    intro x hx
    exact List.exists_cons_of_ne_nil fun e => by rw [e] at hx; simp at hx
  have hdig : ∀ {x : Bytes} {c t} (Y : Bytes), x.length = 32 → x ++ Y = c :: t →
      (StartsWithDigit x ↔ isDigit c = true) := by
    intro x c t Y hx e
    obtain ⟨d, u, rfl⟩ := hcons hx
    obtain ⟨rfl, -⟩ := List.cons.inj e
    rw [isDigit_iff]
    exact ⟨fun ⟨b, v, e, h⟩ => by obtain ⟨rfl, -⟩ := List.cons.inj e; exact h, fun h => ⟨_, _, rfl, h⟩⟩
  constructor
  · intro h
    unfold getHead at h
    obtain ⟨tag', s1, h1⟩ : ∃ tag' s1, getString tag0 ⟨tag ++ (C ++ (decBytes Ls.length ++ (Ls.flatten ++
      (decBytes Rs.length ++ (Rs.flatten ++ (S ++ X)))))), true⟩ = (tag', s1) := ⟨_, _, rfl⟩
    rw [h1] at h
    simp only at h
    obtain ⟨C', s2, h2⟩ : ∃ C' s2, getRaw C0 s1 = (C', s2) := ⟨_, _, rfl⟩
    rw [h2] at h
    simp only at h
    obtain ⟨⟨Ls', n, s3⟩, h3, h⟩ := Res.bind_eq_ok.1 h
    simp only at h
    obtain ⟨⟨Rs', n', s4⟩, h4, h⟩ := Res.bind_eq_ok.1 h
    have e := Res.ok.inj h
    simp only [Prod.mk.injEq] at e
    obtain ⟨rfl, rfl, rfl, rfl, rfl⟩ := e
    obtain ⟨s3', a4, b4, c4⟩ := getVec_good h4 rfl
    obtain ⟨g3, l3⟩ := getNat_good a4 b4
    obtain ⟨s2', a3, b3, c3⟩ := getVec_good h3 g3
    obtain ⟨g2, -⟩ := getNat_good a3 b3
    obtain ⟨g1, c2, -⟩ := getRaw_good h2 g2
    obtain ⟨k1, k2, ⟨c, t, k3, k4⟩, k5⟩ := (getString_iff _ _ _ _).1 ⟨h1, g1⟩
    rw [k5] at c2
    simp only at c2
    have c2' := List.append_cancel_left c2
    have e2 : s2 = ⟨decBytes Ls'.length ++ (Ls'.flatten ++ (decBytes Rs'.length ++ (Rs'.flatten ++ (S ++ X)))), true⟩ := by
      cases s2
      simp only at c2' g2
      rw [c2', g2]
    refine ⟨k1, fun b hb => ?_, ?_, ?_⟩
    · rw [← isSpace_iff, k2 b hb]; simp
    · obtain ⟨d, u, hdu⟩ := hcons hC
      rw [hdu] at k3
      obtain ⟨rfl, -⟩ := List.cons.inj k3
      exact ⟨d, u, hdu, (isSpace_iff _).1 k4⟩
    -- the first number
    rw [e2, getNat_dec] at a3
    generalize hZ : Ls'.flatten ++ (decBytes Rs'.length ++ (Rs'.flatten ++ (S ++ X))) = Z at a3
    split at a3
    · rw [← (Prod.mk.inj a3).2] at b3
      cases b3
    obtain ⟨v3, w3⟩ := Prod.mk.inj a3
    have v3 := Option.some.inj v3
    have hZ0 : Z.takeWhile isDigit = [] := by
      by_contra hne
      have hp : 0 < (Z.takeWhile isDigit).length := List.length_pos_iff.2 hne
      obtain ⟨j, hj⟩ : ∃ j, (Z.takeWhile isDigit).length = j + 1 := ⟨_, (Nat.succ_pred_eq_of_pos hp).symm⟩
      rw [hj, pow_succ] at v3
      have hk0 : Ls'.length = 0 := by
        have : 1 ≤ 10 ^ j := Nat.one_le_pow _ _ (by norm_num)
        nlinarith
      have hl0 : Ls' = [] := List.length_eq_zero_iff.1 hk0
      subst hl0
      simp only [List.flatten_nil, List.nil_append] at hZ
      rw [← hZ] at v3
      rw [(takeWhile_all (decBytes_isDigit _)).1, decVal_append, decVal_decBytes] at v3
      have hm0 : Rs'.length = 0 := by
        have : 1 ≤ 10 ^ (((Rs'.flatten ++ (S ++ X))).takeWhile isDigit).length := Nat.one_le_pow _ _ (by norm_num)
        simp only [List.length_nil, zero_mul, zero_add] at v3
        nlinarith
      have hr0 : Rs' = [] := List.length_eq_zero_iff.1 hm0
      subst hr0
      have q1 : s2'.buf = s3.buf := by rw [c3]; simp
      have q2 : s3'.buf = S ++ X := by rw [c4]; simp
      have q3 : s2'.buf = (S ++ X).dropWhile isDigit := by
        rw [← w3]
        simp only
        rw [← hZ]
        rw [(takeWhile_all (decBytes_isDigit _)).2]
        simp
      have q4 := ((S ++ X).dropWhile_suffix isDigit).length_le
      rw [q2, ← q1, q3] at l3
      omega
    have hZ1 : Z.dropWhile isDigit = Z := by
      have := List.takeWhile_append_dropWhile (p := isDigit) (l := Z)
      rw [hZ0] at this
      simpa using this
    have hLne : Ls' ≠ [] := by
      intro e
      rw [e] at hZ
      simp only [List.flatten_nil, List.nil_append] at hZ
      rw [← hZ, (takeWhile_all (decBytes_isDigit _)).1] at hZ0
      have := (List.append_eq_nil_iff.1 hZ0).1
      exact Props.decBytes_ne_nil _ this
    obtain ⟨L, Lt, hLt⟩ := List.exists_cons_of_ne_nil hLne
    refine ⟨⟨L, Lt, hLt, ?_⟩, ?_⟩
    · have hL32 : L.length = 32 := hL L (by rw [hLt]; simp)
      obtain ⟨c', t', hct⟩ := hcons hL32
      have hZc : L ++ (Lt.flatten ++ (decBytes Rs'.length ++ (Rs'.flatten ++ (S ++ X)))) = Z := by
        rw [← hZ, hLt]; simp
      have hz : Z = c' :: (t' ++ (Lt.flatten ++ (decBytes Rs'.length ++ (Rs'.flatten ++ (S ++ X))))) := by
        rw [← hZc, hct]; rfl
      have := head_of_dropWhile hZ1 _ _ hz
      rw [hdig _ hL32 (hZc.trans hz), this]
      simp
    -- the second number
    have q1 : s3.buf = decBytes Rs'.length ++ (Rs'.flatten ++ (S ++ X)) := by
      have : s2'.buf = Z := by rw [← w3]; exact hZ1
      rw [c3, ← hZ] at this
      exact List.append_cancel_left this
    have e3 : s3 = ⟨decBytes Rs'.length ++ (Rs'.flatten ++ (S ++ X)), true⟩ := by
      cases s3
      simp only at q1 g3
      rw [q1, g3]
    rw [e3, getNat_dec] at a4
    have q2 : s3'.buf = (Rs'.flatten ++ (S ++ X)).dropWhile isDigit := by
      split at a4
      · rw [← (Prod.mk.inj a4).2]
      · rw [← (Prod.mk.inj a4).2]
    rw [c4] at q2
    simp only at q2
    have q3 := head_of_dropWhile q2.symm
    cases hRs : Rs' with
    | nil =>
      refine ⟨S, [], rfl, ?_⟩
      rw [hRs] at q3
      obtain ⟨c', t', hct⟩ := hcons hS
      rw [hct] at q3
      have := q3 c' (t' ++ X) (by simp)
      rw [hdig X hS (by rw [hct]; rfl), this]
      simp
    | cons R Rt =>
      refine ⟨R, Rt ++ [S], rfl, ?_⟩
      have hR32 : R.length = 32 := hR R (by rw [hRs]; simp)
      obtain ⟨c', t', hct⟩ := hcons hR32
      have := q3 c' (t' ++ (Rt.flatten ++ (S ++ X))) (by rw [hRs, hct]; simp)
      rw [hdig (Rt.flatten ++ (S ++ X)) hR32 (by rw [hct]; rfl), this]
      simp
  · rintro ⟨k1, k2, k3, ⟨L, Lt, hLt, k4⟩, ⟨R, Rt, hRt, k5⟩⟩
    have t1 : getString tag0 ⟨tag ++ (C ++ (decBytes Ls.length ++ (Ls.flatten ++ (decBytes Rs.length ++
        (Rs.flatten ++ (S ++ X)))))), true⟩ = (tag, ⟨C ++ (decBytes Ls.length ++ (Ls.flatten ++ (decBytes Rs.length ++
        (Rs.flatten ++ (S ++ X))))), true⟩) := by
      refine ((getString_iff tag0 tag _ _).2 ⟨k1, fun b hb => ?_, ?_, rfl⟩).1
      · have := k2 b hb
        rw [← isSpace_iff] at this
        simpa using this
      · obtain ⟨b, t, rfl, hb⟩ := k3
        exact ⟨b, _, rfl, (isSpace_iff b).2 hb⟩
    have hL32 : L.length = 32 := hL L (by rw [hLt]; simp)
    have t2 := getVec_ok maxLen dflt Ls0 none Ls hL hm.1 h64.1 (decBytes Rs.length ++ (Rs.flatten ++ (S ++ X)))
      (by rw [hLt]; obtain ⟨c, t, e⟩ := hcons hL32; simp [e])
      (by
        intro c t e
        rw [hLt, List.flatten_cons, List.append_assoc] at e
        rw [hdig _ hL32 e] at k4
        simpa using k4)
    have hR32 : R.length = 32 := by
      have : R ∈ Rs ++ [S] := by rw [hRt]; simp
      rcases List.mem_append.1 this with h | h
      · exact hR R h
      · rw [List.mem_singleton.1 h]; exact hS
    have hflat : Rs.flatten ++ (S ++ X) = R ++ (Rt.flatten ++ X) := by
      have := congrArg List.flatten hRt
      simp only [List.flatten_append, List.flatten_cons, List.flatten_nil, List.append_nil] at this
      rw [← List.append_assoc, this, List.append_assoc]
    have t3 := getVec_ok maxLen dflt Rs0 (some Ls.length) Rs hR hm.2 h64.2 (S ++ X)
      (by rw [hflat]; obtain ⟨c, t, e⟩ := hcons hR32; simp [e])
      (by
        intro c t e
        rw [hflat] at e
        rw [hdig _ hR32 e] at k5
        simpa using k5)
    unfold getHead
    rw [t1]
    simp only
    rw [getRaw_ok _ _ hC]
    simp only
    rw [t2, Res.ok_bind]
    simp only
    rw [t3, Res.ok_bind]

end Verif.IO
