/-
C74: the fingerprints of the CRS and of the key, and what `==` compares.
-/
import Verif.Lemmas.KeyHash

namespace Verif.Props
open Regev Spec KeyHash

variable {q : ℕ} [NeZero q]

/-- C74: construction without a CRS.  Bad parameters are refused.  With good parameters and a tag of at most 61
bytes, element (i,j) of the CRS is number `i*k+j` of the stream seeded by the tag and "CRS", so it depends on the tag
and the dimension only; the key matrix is zero; and the fingerprint of the CRS is the hash, keyed by the tag and
"CRS", of the CRS.  With a longer tag the hash function rejects its key and the fingerprint is computed from
uninitialised memory. -/
theorem C74_constructor (hash : Bytes → ℕ → Bytes → Bytes) (prg : Bytes → ℕ → Elt (ZMod q) 2) (tag : Bytes)
    (k n s1 s2 : ℤ) :
    ((k < 1 ∨ n < 5 ∨ s1 < 2 ∨ s2 < 3) → TaggedKey.new hash prg tag k n s1 s2 none = .throw) ∧
    (1 ≤ k → 5 ≤ n → 2 ≤ s1 → 3 ≤ s2 →
      (tag.length ≤ 61 → ∃ t, TaggedKey.new hash prg tag k n s1 s2 none = .ok t ∧ t.tag = tag ∧
        Dims t.key.A k.toNat k.toNat ∧
        (∀ i < k.toNat, ∀ j < k.toNat,
          (t.key.A[i]?).bind (·[j]?) = some (prg (tag ++ str "CRS") (i * k.toNat + j))) ∧
        t.key.B = List.replicate n.toNat (List.replicate k.toNat 0) ∧
        t.Ahash = hash (tag ++ str "CRS") 32 (message t.key.A) ∧ t.Bhash = none) ∧
      (61 < tag.length → TaggedKey.new hash prg tag k n s1 s2 none = .ub)) := by
  refine ⟨fun h => ?_, fun hk hn h1 h2 => ?_⟩
  · unfold TaggedKey.new
    rw [new_bad h, Res.throw_bind]
  · obtain ⟨g1, g2⟩ := new_eq (hash := hash) (prg := prg) (tag := tag) (crs := none)
      (a := fun i j => prg (tag ++ str "CRS") (i * k.toNat + j)) hk hn h1 h2 fun i _ j _ => rfl
    refine ⟨fun hl => ?_, g2⟩
    obtain ⟨t, e, e1, e2, e3, e4, e5, e6, e7, e8⟩ := g1 hl
    refine ⟨t, e, e1, by rw [e5]; exact square_dims _ _, fun i hi j hj => ?_, e6, e7, e8⟩
    rw [e5]
    simp [hi, hj]

theorem given_entry {q : ℕ} (prg : Bytes → ℕ → Elt (ZMod q) 2) (tag : Bytes) (k : ℕ) (M : EMat q 2) (i j : ℕ) :
    crsEntry prg tag k (some M) i j = match (M[i]?).bind (·[j]?) with | some e => .ok e | none => .ub := by
  unfold crsEntry rd
  dsimp only
  cases hM : M[i]? with
  | none => rfl
  | some r =>
    dsimp only
    rw [Res.ok_bind, Option.bind_some]
    cases r[j]? <;> rfl

/-- C74: construction with a given CRS.  If the matrix has the entries that are needed, the CRS is its upper left
corner, the tag and the stream do not matter for it; if one is missing, the constructor reads outside the matrix. -/
theorem C74_given (hash : Bytes → ℕ → Bytes → Bytes) (prg : Bytes → ℕ → Elt (ZMod q) 2) (tag : Bytes)
    (k n s1 s2 : ℤ) (M : EMat q 2) (hk : 1 ≤ k) (hn : 5 ≤ n) (h1 : 2 ≤ s1) (h2 : 3 ≤ s2) :
    ((∀ i < k.toNat, ∀ j < k.toNat, ((M[i]?).bind (·[j]?)).isSome) → tag.length ≤ 61 →
      ∃ t, TaggedKey.new hash prg tag k n s1 s2 (some M) = .ok t ∧ t.tag = tag ∧ Dims t.key.A k.toNat k.toNat ∧
        (∀ i < k.toNat, ∀ j < k.toNat, (t.key.A[i]?).bind (·[j]?) = (M[i]?).bind (·[j]?)) ∧
        t.key.B = List.replicate n.toNat (List.replicate k.toNat 0) ∧
        t.Ahash = hash (tag ++ str "CRS") 32 (message t.key.A) ∧ t.Bhash = none) ∧
    ((∃ i < k.toNat, ∃ j < k.toNat, (M[i]?).bind (·[j]?) = none) →
      TaggedKey.new hash prg tag k n s1 s2 (some M) = .ub) := by
  have key := given_entry prg tag k.toNat M
  constructor
  · intro h hl
    obtain ⟨g1, -⟩ := new_eq (hash := hash) (prg := prg) (tag := tag) (crs := some M)
      (a := fun i j => ((M[i]?).bind (·[j]?)).getD 0) hk hn h1 h2 (by
        intro i hi j hj
        obtain ⟨e, he⟩ := Option.isSome_iff_exists.1 (h i hi j hj)
        rw [key, he]; rfl)
    obtain ⟨t, e, e1, e2, e3, e4, e5, e6, e7, e8⟩ := g1 hl
    refine ⟨t, e, e1, by rw [e5]; exact square_dims _ _, fun i hi j hj => ?_, e6, e7, e8⟩
    obtain ⟨x, hx⟩ := Option.isSome_iff_exists.1 (h i hi j hj)
    rw [e5, hx]
    have : ((M[i]?).bind (·[j]?)).getD 0 = x := by rw [hx]; rfl
    simp [hi, hj, this]
  · rintro ⟨i, hi, j, hj, h⟩
    have all : ∀ i j, (∃ e, crsEntry prg tag k.toNat (some M) i j = .ok e) ∨
        crsEntry prg tag k.toNat (some M) i j = .ub := by
      intro i j
      rw [key]
      cases (M[i]?).bind (·[j]?) with
      | none => exact Or.inr rfl
      | some e => exact Or.inl ⟨e, rfl⟩
    have hr : ∀ i, (∃ r, mapRes (fun j => crsEntry prg tag k.toNat (some M) i j) (List.range k.toNat) = .ok r) ∨
        mapRes (fun j => crsEntry prg tag k.toNat (some M) i j) (List.range k.toNat) = .ub := by
      intro i
      by_cases hc : ∃ j ∈ List.range k.toNat, crsEntry prg tag k.toNat (some M) i j = .ub
      · exact Or.inr (mapRes_ub (fun j _ => all i j) hc)
      · push Not at hc
        exact Or.inl (mapRes_total fun j hj => (all i j).resolve_right (hc j hj))
    have hu : crsRows prg tag k.toNat (some M) = .ub := by
      refine mapRes_ub (fun i _ => hr i) ⟨i, List.mem_range.2 hi, ?_⟩
      refine mapRes_ub (fun j _ => all i j) ⟨j, List.mem_range.2 hj, ?_⟩
      rw [key, h]
    obtain ⟨g0, hg0, -⟩ := new_good (q := q) (crs := fun _ _ => 0) hk hn h1 h2
    unfold TaggedKey.new
    rw [hg0, Res.ok_bind, hu, Res.ub_bind]

/-- C74: `setKeyHash` always succeeds; it makes the fingerprint of the key the hash, keyed by "RegevKey", of the key
matrix, and changes nothing else. -/
theorem C74_key_hash (hash : Bytes → ℕ → Bytes → Bytes) (t : TaggedKey q 2) :
    t.setKeyHash hash = .ok { t with Bhash := some (hash (str "RegevKey") 32 (message t.key.B)) } :=
  setKeyHash_eq hash t

/-- What every constructed key satisfies, with or without a given CRS. -/
theorem new_ok {hash : Bytes → ℕ → Bytes → Bytes} {prg : Bytes → ℕ → Elt (ZMod q) 2} {tag : Bytes} {k n s1 s2 : ℤ}
    {crs : Option (EMat q 2)} {t : TaggedKey q 2} (h : TaggedKey.new hash prg tag k n s1 s2 crs = .ok t) :
    t.tag = tag ∧ Dims t.key.A k.toNat k.toNat ∧ t.Ahash = hash (tag ++ str "CRS") 32 (message t.key.A) := by
  by_cases hb : k < 1 ∨ n < 5 ∨ s1 < 2 ∨ s2 < 3
  · unfold TaggedKey.new at h
    rw [new_bad hb, Res.throw_bind] at h
    cases h
  push Not at hb
  obtain ⟨hk, hn, h1, h2⟩ := hb
  cases crs with
  | none =>
    obtain ⟨-, g⟩ := C74_constructor hash prg tag k n s1 s2
    obtain ⟨g1, g2⟩ := g hk hn h1 h2
    by_cases hl : tag.length ≤ 61
    · obtain ⟨u, e, e1, e2, -, -, e3, -⟩ := g1 hl
      obtain rfl := Res.ok.inj (h.symm.trans e)
      exact ⟨e1, e2, e3⟩
    · rw [g2 (by omega)] at h
      cases h
  | some M =>
    obtain ⟨g1, g2⟩ := C74_given hash prg tag k n s1 s2 M hk hn h1 h2
    by_cases hM : ∃ i < k.toNat, ∃ j < k.toNat, (M[i]?).bind (·[j]?) = none
    · rw [g2 hM] at h
      cases h
    have hM' : ∀ i < k.toNat, ∀ j < k.toNat, ((M[i]?).bind (·[j]?)).isSome := by
      intro i hi j hj
      rw [Option.isSome_iff_ne_none]
      exact fun hc => hM ⟨i, hi, j, hj, hc⟩
    by_cases hl : tag.length ≤ 61
    · obtain ⟨u, e, e1, e2, -, -, e3, -⟩ := g1 hM' hl
      obtain rfl := Res.ok.inj (h.symm.trans e)
      exact ⟨e1, e2, e3⟩
    · rw [(new_eq (a := fun i j => ((M[i]?).bind (·[j]?)).getD 0) hk hn h1 h2 (by
        intro i hi j hj
        obtain ⟨e, he⟩ := Option.isSome_iff_exists.1 (hM' i hi j hj)
        rw [given_entry, he]; rfl)).2 (by omega)] at h
      cases h

/-- C74: the fingerprint of the CRS binds the tag, the dimension and the CRS: two keys, constructed with or without a
given CRS, with equal fingerprints agree in all three, unless their own tags and matrices are a collision of the
hash function. -/
theorem C74_crs_binding (hq : q ≤ 256 ^ 32) {hash : Bytes → ℕ → Bytes → Bytes}
    {prg prg' : Bytes → ℕ → Elt (ZMod q) 2} {tag tag' : Bytes} {k n s1 s2 k' n' s1' s2' : ℤ}
    {crs crs' : Option (EMat q 2)} {t t' : TaggedKey q 2}
    (h : TaggedKey.new hash prg tag k n s1 s2 crs = .ok t)
    (h' : TaggedKey.new hash prg' tag' k' n' s1' s2' crs' = .ok t') (he : t.Ahash = t'.Ahash) :
    (t.tag = t'.tag ∧ k.toNat = k'.toNat ∧ t.key.A = t'.key.A) ∨
      Collides hash (tag ++ str "CRS") (message t.key.A) (tag' ++ str "CRS") (message t'.key.A) := by
  obtain ⟨e1, e2, e3⟩ := new_ok h
  obtain ⟨f1, f2, f3⟩ := new_ok h'
  rw [e3, f3] at he
  by_cases hc : (tag ++ str "CRS", message t.key.A) = (tag' ++ str "CRS", message t'.key.A)
  · left
    obtain ⟨h1, h2⟩ := Prod.mk.inj hc
    exact ⟨by rw [e1, f1]; exact List.append_cancel_right h1, message_square hq e2 f2 h2⟩
  · exact Or.inr ⟨hc, he⟩

/-- C74: among keys of one dimension and one number of parties, the fingerprint of the key binds the key matrix,
unless the two matrices are a collision of the hash function. -/
theorem C74_key_binding (hq : q ≤ 256 ^ 32) {hash : Bytes → ℕ → Bytes → Bytes} {t t' u u' : TaggedKey q 2}
    {n k : ℕ} (hB : Dims t.key.B n k) (hB' : Dims t'.key.B n k) (hu : t.setKeyHash hash = .ok u)
    (hu' : t'.setKeyHash hash = .ok u') (h : u.Bhash = u'.Bhash) :
    u.key.B = u'.key.B ∨
      Collides hash (str "RegevKey") (message t.key.B) (str "RegevKey") (message t'.key.B) := by
  rw [setKeyHash_eq] at hu hu'
  obtain rfl := Res.ok.inj hu
  obtain rfl := Res.ok.inj hu'
  have h' := Option.some.inj h
  dsimp only
  by_cases hc : message t.key.B = message t'.key.B
  · exact Or.inl (message_inj hq hB hB' hc)
  · exact Or.inr ⟨fun he => hc (Prod.mk.inj he).2, h'⟩

/-- C74: the shape is not part of what is hashed: a key for one party with two entries and a key for two parties with
one entry each have the same fingerprint, whatever the hash function. -/
theorem C74_key_shape (hash : Bytes → ℕ → Bytes → Bytes) (t t' : TaggedKey q 2) (a b : Elt (ZMod q) 2)
    (h : t.key.B = [[a, b]]) (h' : t'.key.B = [[a], [b]]) :
    ∃ u u', t.setKeyHash hash = .ok u ∧ t'.setKeyHash hash = .ok u' ∧ u.Bhash = u'.Bhash := by
  refine ⟨_, _, setKeyHash_eq hash t, setKeyHash_eq hash t', ?_⟩
  dsimp only
  rw [h, h']
  rfl

/-- C74: adding a public key does not refresh the fingerprint: after `setKeyHash` and `addPK` the fingerprint is
still that of the old matrix, so when the added key differs from the row it replaces, the fingerprint is not the one
that `setKeyHash` would now give, unless the old and the new matrix are a collision of the hash function. -/
theorem C74_stale (hq : q ≤ 256 ^ 32) {hash : Bytes → ℕ → Bytes → Bytes} {t u v w : TaggedKey q 2} {pk : EVec q 2}
    {idx : ℕ} (hB : Dims t.key.B t.key.enn t.key.kay) (hu : t.setKeyHash hash = .ok u)
    (hp : u.addPK pk = (v, .ok idx)) (hne : t.key.B[idx]? ≠ some pk) (hw : v.setKeyHash hash = .ok w) :
    v.Bhash = some (hash (str "RegevKey") 32 (message t.key.B)) ∧ (w.Bhash ≠ v.Bhash ∨
      Collides hash (str "RegevKey") (message w.key.B) (str "RegevKey") (message t.key.B)) := by
  rw [setKeyHash_eq] at hu hw
  obtain rfl := Res.ok.inj hu
  obtain rfl := Res.ok.inj hw
  unfold TaggedKey.addPK GlobalKey.addPK at hp
  dsimp only at hp
  by_cases hl : pk.length ≠ t.key.kay
  · rw [if_pos hl] at hp
    exact absurd (Prod.mk.inj hp).2 (by simp)
  rw [if_neg hl] at hp
  by_cases hi : t.key.nPks ≥ t.key.enn
  · rw [if_pos hi] at hp
    exact absurd (Prod.mk.inj hp).2 (by simp)
  rw [if_neg hi] at hp
  obtain ⟨h1, h2⟩ := Prod.mk.inj hp
  obtain rfl := Res.ok.inj h2
  subst h1
  refine ⟨rfl, ?_⟩
  dsimp only
  by_cases hc : message (t.key.B.set t.key.nPks pk) = message t.key.B
  · exfalso
    apply hne
    have hd : Dims (t.key.B.set t.key.nPks pk) t.key.enn t.key.kay := by
      refine ⟨by rw [List.length_set, hB.1], fun r hr => ?_⟩
      rcases List.mem_or_eq_of_mem_set hr with h | rfl
      · exact hB.2 r h
      · push Not at hl; exact hl
    rw [← message_inj hq hd hB hc, List.getElem?_set_self (by rw [hB.1]; omega)]
  · by_cases he : hash (str "RegevKey") 32 (message (t.key.B.set t.key.nPks pk)) =
        hash (str "RegevKey") 32 (message t.key.B)
    · exact Or.inr ⟨fun h => hc (Prod.mk.inj h).2, he⟩
    · exact Or.inl fun h => he (Option.some.inj h)

/-- C74: `==` compares tags only: for all good parameters and every tag there are two keys that compare equal although
their CRSs differ (so encryptions under one are not encryptions under the other). -/
theorem C74_equality (hq : 1 < q) (hash : Bytes → ℕ → Bytes → Bytes) (prg : Bytes → ℕ → Elt (ZMod q) 2) (tag : Bytes)
    (k n s1 s2 : ℤ) (hk : 1 ≤ k) (hn : 5 ≤ n) (h1 : 2 ≤ s1) (h2 : 3 ≤ s2) (hl : tag.length ≤ 61) :
    (∃ M M' : EMat q 2, ∃ t t', TaggedKey.new hash prg tag k n s1 s2 (some M) = .ok t ∧
      TaggedKey.new hash prg tag k n s1 s2 (some M') = .ok t' ∧ t.eq t' = true ∧ t.key.A ≠ t'.key.A) ∧
    (∀ t t' : TaggedKey q 2, t.eq t' = true ↔ t.tag = t'.tag) := by
  refine ⟨?_, fun t t' => by unfold TaggedKey.eq; exact beq_iff_eq⟩
  have hne : (⟨fun _ => 1⟩ : Elt (ZMod q) 2) ≠ 0 := by
    intro h
    have h0 := congrFun (congrArg Elt.c h) 0
    haveI : Fact (1 < q) := ⟨hq⟩
    exact one_ne_zero h0
  have mk : ∀ x : Elt (ZMod q) 2, ∃ t, TaggedKey.new hash prg tag k n s1 s2
      (some (List.replicate k.toNat (List.replicate k.toNat x))) = .ok t ∧ t.tag = tag ∧
      (t.key.A[0]?).bind (·[0]?) = some x := by
    intro x
    obtain ⟨g1, -⟩ := C74_given hash prg tag k n s1 s2 (List.replicate k.toNat (List.replicate k.toNat x)) hk hn h1 h2
    obtain ⟨t, e, e1, -, e2, -⟩ := g1 (by
      intro i hi j hj
      simp [List.getElem?_replicate, hi, hj]) hl
    refine ⟨t, e, e1, ?_⟩
    rw [e2 0 (by omega) 0 (by omega)]
    simp [List.getElem?_replicate, show 0 < k by omega]
  obtain ⟨t, e, e1, e2⟩ := mk 0
  obtain ⟨t', e', e1', e2'⟩ := mk ⟨fun _ => 1⟩
  refine ⟨_, _, t, t', e, e', by unfold TaggedKey.eq; rw [e1, e1']; exact beq_self_eq_true _, fun h => ?_⟩
  rw [h, e2'] at e2
  exact hne (Option.some.inj e2)

/-! ### The hypotheses are met -/

/-- A toy hash function without collisions on the messages below: key, length, message. -/
private def toyHash (key : Bytes) (_ : ℕ) (m : Bytes) : Bytes := UInt8.ofNat key.length :: key ++ m

/-- a key with a short tag, built, filled and fingerprinted; the fingerprint goes stale -/
example : ∃ t u v : TaggedKey 7 2, ∃ idx,
    TaggedKey.new toyHash (fun _ i => ⟨fun _ => i⟩) (str "demo") 2 5 2 3 none = .ok t ∧
    Dims t.key.B t.key.enn t.key.kay ∧ t.setKeyHash toyHash = .ok u ∧
    u.addPK [⟨fun _ => 1⟩, ⟨fun _ => 2⟩] = (v, .ok idx) ∧ t.key.B[idx]? ≠ some [⟨fun _ => 1⟩, ⟨fun _ => 2⟩] := by
  obtain ⟨g1, -⟩ := new_eq (q := 7) (hash := toyHash) (prg := fun _ i => ⟨fun _ => i⟩) (tag := str "demo") (crs := none)
    (k := 2) (n := 5) (s1 := 2) (s2 := 3) (a := fun i j => ⟨fun _ => ((i * 2 + j : ℕ) : ZMod 7)⟩) (by norm_num)
    (by norm_num) (by norm_num) (by norm_num) fun i _ j _ => rfl
  obtain ⟨t, e, -, e1, e2, e3, -, e4, -⟩ := g1 (by decide +kernel)
  have hB : ∀ h, ({ t with Bhash := h } : TaggedKey 7 2).addPK [⟨fun _ => 1⟩, ⟨fun _ => 2⟩] =
      ((({ t with Bhash := h } : TaggedKey 7 2).addPK [⟨fun _ => 1⟩, ⟨fun _ => 2⟩]).1, .ok 0) := by
    intro h
    unfold TaggedKey.addPK GlobalKey.addPK
    dsimp only
    rw [if_neg (by rw [e1]; simp), if_neg (by rw [e2, e3]; simp)]
    dsimp only
    rw [e3]
  refine ⟨t, _, _, 0, e, ?_, setKeyHash_eq _ _, hB _, ?_⟩
  · rw [e1, e2, e4]
    exact ⟨by simp, fun r hr => by rw [List.eq_of_mem_replicate hr]; simp⟩
  · rw [e4]
    intro h
    have := congrArg (fun r => (r.map fun l : EVec 7 2 => (l.getD 0 0).c 0)) h
    revert this
    decide

/-- the tag must be longer than 61 bytes for the undefined case, and such tags exist -/
example : 61 < (List.replicate 62 (65 : UInt8)).length := by decide

end Verif.Props
