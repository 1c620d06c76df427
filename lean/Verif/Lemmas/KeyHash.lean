/-
Lemmas about Model/KeyHash.lean.
-/
import Verif.Model.KeyHash
import Verif.Spec.KeyHash
import Verif.Lemmas.Scalar
import Verif.Lemmas.Main
import Verif.Lemmas.Ternary

namespace Verif.KeyHash
open Regev Spec Sc

variable {q : ℕ}

theorem bytesLoop_eq (k n : ℕ) :
    bytesFromIntLoop k n = (List.range k).map fun i => UInt8.ofNat (n / 256 ^ i % 256) := by
  induction k generalizing n with
  | zero => rfl
  | succ k ih =>
    rw [bytesFromIntLoop, ih, List.range_succ_eq_map, List.map_cons, List.map_map]
    congr 1
    · rw [pow_zero, Nat.div_one]
    · refine List.map_congr_left fun i _ => ?_
      rw [Function.comp_apply, Nat.div_div_eq_div_mul, Nat.succ_eq_add_one, pow_succ']

theorem le32_eq (n : ℕ) : le32 n = bytesFromIntLoop 32 n := (bytesLoop_eq 32 n).symm

theorem le32_length (n : ℕ) : (le32 n).length = 32 := by rw [le32_eq, bytesLoop_length]

theorem le32_inj {a b : ℕ} (ha : a < 256 ^ 32) (hb : b < 256 ^ 32) (h : le32 a = le32 b) : a = b := by
  have := congrArg leVal h
  rw [le32_eq, le32_eq, bytesLoop_val, bytesLoop_val, Nat.mod_eq_of_lt ha, Nat.mod_eq_of_lt hb] at this
  exact this

theorem elt_bytes [NeZero q] (e : Elt (ZMod q) 2) :
    elementBytes e (32 * 2) = le32 (e.c 0).val ++ le32 (e.c 1).val := by
  have h : e.toList = [e.c 0, e.c 1] := rfl
  have hs : ∀ s : ZMod q, scalarBytes s 32 = le32 s.val := fun s => by
    rw [scalarBytes, zzBytes, Int.natAbs_natCast, le32_eq]
  rw [elementBytes_eq, h]
  unfold elementBytesLoop
  rw [if_neg (by decide)]
  dsimp only
  rw [if_neg (by decide)]
  unfold elementBytesLoop
  rw [if_neg (by decide)]
  dsimp only
  rw [if_neg (by decide)]
  unfold elementBytesLoop
  rw [hs, hs]
  simp

theorem hashRow_some [NeZero q] (key : Bytes) (n : ℕ) (r : EVec q 2) : ∀ m : Bytes,
    hashRow (some (key, n, m)) r =
      .ok (some (key, n, m ++ r.flatMap fun e => le32 (e.c 0).val ++ le32 (e.c 1).val)) := by
  induction r with
  | nil => intro m; simp [hashRow]
  | cons e r ih =>
    intro m
    rw [hashRow, hashUpdate, Res.ok_bind, ih, elt_bytes, List.flatMap_cons]
    simp only [List.append_assoc]

theorem hashRows_some [NeZero q] (key : Bytes) (n : ℕ) (M : EMat q 2) : ∀ m : Bytes,
    hashRows (some (key, n, m)) M = .ok (some (key, n, m ++ message M)) := by
  induction M with
  | nil => intro m; simp [hashRows, message]
  | cons r M ih =>
    intro m
    rw [hashRows, hashRow_some, Res.ok_bind, ih, message, message, List.flatten_cons, List.flatMap_append,
      ← List.append_assoc]

theorem hashRows_none (r : EVec q 2) (e : Elt (ZMod q) 2) (M : EMat q 2) :
    hashRows none ((e :: r) :: M) = .ub := rfl

theorem elements_inj [NeZero q] (hq : q ≤ 256 ^ 32) : ∀ (a b : EVec q 2),
    (a.flatMap fun e => le32 (e.c 0).val ++ le32 (e.c 1).val) =
      (b.flatMap fun e => le32 (e.c 0).val ++ le32 (e.c 1).val) → a = b := by
  intro a
  induction a with
  | nil =>
    intro b h
    cases b with
    | nil => rfl
    | cons e b =>
      have := congrArg List.length h
      simp only [List.flatMap_cons, List.flatMap_nil, List.length_append, le32_length, List.length_nil] at this
      omega
  | cons e a ih =>
    intro b h
    cases b with
    | nil =>
      have := congrArg List.length h
      simp only [List.flatMap_cons, List.flatMap_nil, List.length_append, le32_length, List.length_nil] at this
      omega
    | cons f b =>
      rw [List.flatMap_cons, List.flatMap_cons] at h
      obtain ⟨h1, h2⟩ := List.append_inj h (by
        rw [List.length_append, List.length_append, le32_length, le32_length, le32_length, le32_length])
      obtain ⟨h3, h4⟩ := List.append_inj h1 (by rw [le32_length, le32_length])
      have lt : ∀ s : ZMod q, s.val < 256 ^ 32 := fun s => lt_of_lt_of_le (ZMod.val_lt s) hq
      have e0 := ZMod.val_injective q (le32_inj (lt _) (lt _) h3)
      have e1 := ZMod.val_injective q (le32_inj (lt _) (lt _) h4)
      rw [ih b h2]
      congr 1
      apply Elt.ext
      funext c
      fin_cases c
      · exact e0
      · exact e1

theorem flatten_inj {α : Type} {m : ℕ} : ∀ (M N : List (List α)), (∀ r ∈ M, r.length = m) → (∀ r ∈ N, r.length = m) →
    M.length = N.length → M.flatten = N.flatten → M = N := by
  intro M
  induction M with
  | nil => intro N _ _ hl _; exact (List.length_eq_zero_iff.1 hl.symm).symm
  | cons r M ih =>
    intro N hM hN hl h
    cases N with
    | nil => simp at hl
    | cons s N =>
      rw [List.flatten_cons, List.flatten_cons] at h
      obtain ⟨h1, h2⟩ := List.append_inj h (by rw [hM r (by simp), hN s (by simp)])
      rw [h1, ih N (fun r hr => hM r (by simp [hr])) (fun r hr => hN r (by simp [hr])) (by simpa using hl) h2]

theorem message_inj [NeZero q] (hq : q ≤ 256 ^ 32) {M N : EMat q 2} {n m : ℕ} (hM : Dims M n m) (hN : Dims N n m)
    (h : message M = message N) : M = N :=
  flatten_inj M N hM.2 hN.2 (hM.1.trans hN.1.symm) (elements_inj hq _ _ h)

theorem flatten_length {α : Type} {m : ℕ} : ∀ (M : List (List α)), (∀ r ∈ M, r.length = m) →
    M.flatten.length = M.length * m := by
  intro M
  induction M with
  | nil => intro _; simp
  | cons r M ih =>
    intro h
    rw [List.flatten_cons, List.length_append, ih fun r hr => h r (by simp [hr]), h r (by simp), List.length_cons,
      Nat.succ_mul, Nat.add_comm]

/-- messages of square matrices determine the matrix, including its size -/
theorem message_square [NeZero q] (hq : q ≤ 256 ^ 32) {M N : EMat q 2} {n m : ℕ} (hM : Dims M n n) (hN : Dims N m m)
    (h : message M = message N) : n = m ∧ M = N := by
  have hf := elements_inj hq _ _ h
  have := congrArg List.length hf
  rw [flatten_length M hM.2, flatten_length N hN.2, hM.1, hN.1] at this
  have hnm : n = m := by
    rcases Nat.lt_trichotomy n m with h | h | h
    · have := Nat.mul_lt_mul'' h h; omega
    · exact h
    · have := Nat.mul_lt_mul'' h h; omega
  subst hnm
  exact ⟨rfl, message_inj hq hM hN h⟩

theorem setKeyHash_eq [NeZero q] (hash : Bytes → ℕ → Bytes → Bytes) (t : TaggedKey q 2) :
    t.setKeyHash hash = .ok { t with Bhash := some (hash (str "RegevKey") 32 (message t.key.B)) } := by
  unfold TaggedKey.setKeyHash
  have : hashInit (str "RegevKey") 32 = some (str "RegevKey", 32, []) := by
    unfold hashInit
    rw [if_neg (by decide +kernel)]
  rw [this, hashRows_some, Res.ok_bind, hashFinal, Res.ok_bind, List.nil_append]

theorem mapRes_ub {α β : Type} {f : α → Res β} {l : List α} (h : ∀ a ∈ l, (∃ b, f a = .ok b) ∨ f a = .ub)
    (h' : ∃ a ∈ l, f a = .ub) : mapRes f l = .ub := by
  induction l with
  | nil => obtain ⟨a, ha, -⟩ := h'; cases ha
  | cons x l ih =>
    unfold mapRes
    rcases h x List.mem_cons_self with ⟨b, hb⟩ | hb
    · obtain ⟨a, ha, ha'⟩ := h'
      rcases List.mem_cons.1 ha with rfl | ha
      · rw [hb] at ha'; cases ha'
      · rw [hb, Res.ok_bind, ih (fun a ha => h a (List.mem_cons_of_mem _ ha)) ⟨a, ha, ha'⟩, Res.ub_bind]
    · rw [hb, Res.ub_bind]

theorem new_bad {crs : ℕ → ℕ → Elt (ZMod q) 2} {k n s1 s2 : ℤ} (h : k < 1 ∨ n < 5 ∨ s1 < 2 ∨ s2 < 3) :
    GlobalKey.new k n s1 s2 crs = .throw := by
  unfold GlobalKey.new
  by_cases hc : k ≤ 0 ∨ n ≤ 0 ∨ s1 ≤ 1 ∨ s2 ≤ 2
  · rw [if_pos hc]
  · rw [if_neg hc]
    dsimp only
    rw [if_pos]
    have : (n.toNat - 1) / (2 * 2) = 0 := Nat.div_eq_of_lt (by omega)
    rw [this, Nat.zero_mul]

theorem new_good {crs : ℕ → ℕ → Elt (ZMod q) 2} {k n s1 s2 : ℤ} (hk : 1 ≤ k) (hn : 5 ≤ n) (h1 : 2 ≤ s1) (h2 : 3 ≤ s2) :
    ∃ gk : GlobalKey q 2, GlobalKey.new k n s1 s2 crs = .ok gk ∧ gk.kay = k.toNat ∧ gk.enn = n.toNat ∧
      gk.A = ((List.range k.toNat).map fun i => (List.range k.toNat).map fun j => crs i j) ∧
      gk.B = List.replicate n.toNat (List.replicate k.toNat 0) ∧ gk.nPks = 0 := by
  unfold GlobalKey.new
  rw [if_neg (by omega)]
  dsimp only
  have : 0 < (n.toNat - 1) / (2 * 2) := Nat.div_pos (by omega) (by omega)
  rw [if_neg (by omega)]
  exact ⟨_, rfl, rfl, rfl, rfl, rfl, rfl⟩

/-- the matrix that the loop over the CRS builds when every entry is there -/
theorem crsRows_ok {prg : Bytes → ℕ → Elt (ZMod q) 2} {tag : Bytes} {k : ℕ} {crs : Option (EMat q 2)}
    {a : ℕ → ℕ → Elt (ZMod q) 2} (h : ∀ i < k, ∀ j < k, crsEntry prg tag k crs i j = .ok (a i j)) :
    crsRows prg tag k crs = .ok ((List.range k).map fun i => (List.range k).map fun j => a i j) := by
  unfold crsRows
  refine mapRes_ok fun i hi => mapRes_ok fun j hj => h i (List.mem_range.1 hi) j (List.mem_range.1 hj)

theorem square_get (k : ℕ) (a : ℕ → ℕ → Elt (ZMod q) 2) :
    ((List.range k).map fun i => (List.range k).map fun j =>
      ((((List.range k).map fun i => (List.range k).map fun j => a i j).getD i []).getD j 0)) =
    (List.range k).map fun i => (List.range k).map fun j => a i j := by
  refine List.map_congr_left fun i hi => List.map_congr_left fun j hj => ?_
  rw [List.mem_range] at hi hj
  simp [List.getD_eq_getElem?_getD, hi, hj]

theorem square_dims (k : ℕ) (a : ℕ → ℕ → Elt (ZMod q) 2) :
    Dims ((List.range k).map fun i => (List.range k).map fun j => a i j) k k := by
  constructor
  · simp
  · intro r hr
    obtain ⟨i, -, rfl⟩ := List.mem_map.1 hr
    simp

theorem crs_length (tag : Bytes) : (tag ++ str "CRS").length = tag.length + 3 := by
  rw [List.length_append]; rfl

theorem new_eq [NeZero q] {hash : Bytes → ℕ → Bytes → Bytes} {prg : Bytes → ℕ → Elt (ZMod q) 2} {tag : Bytes} {k n s1 s2 : ℤ}
    {crs : Option (EMat q 2)} {a : ℕ → ℕ → Elt (ZMod q) 2} (hk : 1 ≤ k) (hn : 5 ≤ n) (h1 : 2 ≤ s1) (h2 : 3 ≤ s2)
    (h : ∀ i < k.toNat, ∀ j < k.toNat, crsEntry prg tag k.toNat crs i j = .ok (a i j)) :
    (tag.length ≤ 61 → ∃ t, TaggedKey.new hash prg tag k n s1 s2 crs = .ok t ∧ t.tag = tag ∧ t.key.kay = k.toNat ∧
      t.key.enn = n.toNat ∧ t.key.nPks = 0 ∧
      t.key.A = ((List.range k.toNat).map fun i => (List.range k.toNat).map fun j => a i j) ∧
      t.key.B = List.replicate n.toNat (List.replicate k.toNat 0) ∧
      t.Ahash = hash (tag ++ str "CRS") 32 (message t.key.A) ∧ t.Bhash = none) ∧
    (61 < tag.length → TaggedKey.new hash prg tag k n s1 s2 crs = .ub) := by
  obtain ⟨g0, hg0, -⟩ := new_good (q := q) (crs := fun _ _ => 0) hk hn h1 h2
  obtain ⟨gk, hg, e1, e2, e3, e4, e5⟩ := new_good (q := q)
    (crs := fun i j => ((((List.range k.toNat).map fun i => (List.range k.toNat).map fun j => a i j).getD i []).getD j 0))
    hk hn h1 h2
  rw [square_get] at e3
  unfold TaggedKey.new
  rw [hg0, Res.ok_bind, crsRows_ok h, Res.ok_bind, hg, Res.ok_bind]
  constructor
  · intro hl
    have hi : hashInit (tag ++ str "CRS") 32 = some (tag ++ str "CRS", 32, []) := by
      unfold hashInit
      rw [crs_length, if_neg (by omega)]
    rw [hi, hashRows_some, Res.ok_bind, hashFinal, Res.ok_bind, List.nil_append]
    exact ⟨_, rfl, rfl, e1, e2, e5, e3, e4, rfl, rfl⟩
  · intro hl
    have hi : hashInit (tag ++ str "CRS") 32 = none := by
      unfold hashInit
      rw [crs_length, if_pos (by omega)]
    obtain ⟨m, hm⟩ : ∃ m, k.toNat = m + 1 := ⟨k.toNat - 1, by omega⟩
    rw [hi, e3, hm, List.range_succ_eq_map, List.map_cons, List.map_cons, hashRows_none, Res.ub_bind]

end Verif.KeyHash
