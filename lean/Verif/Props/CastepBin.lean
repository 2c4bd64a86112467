import Verif.Model.CastepBin

/-!
# C58: Fortran records are read exactly or refused
-/

set_option autoImplicit false

namespace Euphonic.CastepBin

variable {K : Type}

/-! ## Specification -/

/-- The four bytes of a big-endian number. -/
def mark (n : Nat) : List UInt8 :=
  [UInt8.ofNat (n / 2 ^ 24), UInt8.ofNat (n / 2 ^ 16), UInt8.ofNat (n / 2 ^ 8), UInt8.ofNat n]

/-- A Fortran record: length, payload, length. -/
def record (p : List UInt8) : List UInt8 := mark p.length ++ p ++ mark p.length

/-- A signed integer as four bytes (two's complement). -/
def encInt (z : Int) : List UInt8 := mark (z % 2 ^ 32).toNat

/-! ## Basic facts -/

theorem length_encInt (z : Int) : (encInt z).length = 4 := rfl

theorem length_mark (n : Nat) : (mark n).length = 4 := rfl

theorem int32_mark (n : Nat) (h : n < 2 ^ 31) : int32 (mark n) = .ok (n : Int) := by
  simp only [int32, mark, UInt8.toNat_ofNat']
  congr 1
  split <;> omega

theorem int32_encInt (z : Int) (h1 : -2 ^ 31 ≤ z) (h2 : z < 2 ^ 31) : int32 (encInt z) = .ok z := by
  simp only [int32, encInt, mark, UInt8.toNat_ofNat']
  congr 1
  split <;> omega

theorem int32_length {b : List UInt8} {z : Int} (h : int32 b = .ok z) : b.length = 4 := by
  unfold int32 at h
  split at h
  · rfl
  · cases h

/-- Four bytes are determined by the number they stand for. -/
theorem int32_inj {b c : List UInt8} {z : Int} (hb : int32 b = .ok z) (hc : int32 c = .ok z) : b = c := by
  unfold int32 at hb hc
  split at hb
  · rename_i a1 a2 a3 a4
    split at hc
    · rename_i b1 b2 b3 b4
      simp only [Except.ok.injEq] at hb hc
      have := a1.toNat_lt; have := a2.toNat_lt; have := a3.toNat_lt; have := a4.toNat_lt
      have := b1.toNat_lt; have := b2.toNat_lt; have := b3.toNat_lt; have := b4.toNat_lt
      have key : a1.toNat = b1.toNat ∧ a2.toNat = b2.toNat ∧ a3.toNat = b3.toNat ∧
          a4.toNat = b4.toNat := by
        split at hb <;> split at hc <;> omega
      rw [UInt8.toNat_inj, UInt8.toNat_inj, UInt8.toNat_inj, UInt8.toNat_inj] at key
      rw [key.1, key.2.1, key.2.2.1, key.2.2.2]
    · cases hc
  · cases hb

theorem mark_of_int32 {b : List UInt8} {n : Nat} (h : int32 b = .ok (n : Int)) (hn : n < 2 ^ 31) :
    b = mark n := int32_inj h (int32_mark n hn)

theorem int32_lt {b : List UInt8} {z : Int} (h : int32 b = .ok z) : z < 2 ^ 31 := by
  unfold int32 at h
  split at h
  · rename_i a1 a2 a3 a4
    have := a1.toNat_lt; have := a2.toNat_lt; have := a3.toNat_lt; have := a4.toNat_lt
    simp only [Except.ok.injEq] at h
    split at h <;> omega
  · cases h

theorem bind_apply {α β : Type} (x : Rd α) (g : α → Rd β) (f : File) :
    (x >>= g) f = match x f with
      | .ok (a, f') => g a f'
      | .error e => .error e := by
  show StateT.bind x g f = _
  simp only [StateT.bind, bind, Except.bind]
  cases x f <;> rfl

theorem pure_apply {α : Type} (a : α) (f : File) : (pure a : Rd α) f = .ok (a, f) := rfl

theorem throw_apply {α : Type} (e : Err) (f : File) : (throw e : Rd α) f = .error e := rfl

theorem lift_ok {α : Type} (x : Except Err α) (a : α) (h : x = .ok a) (f : File) :
    (liftM x : Rd α) f = .ok (a, f) := by
  subst h; rfl

theorem lift_apply {α : Type} (x : Except Err α) (f : File) :
    (liftM x : Rd α) f = match x with | .ok a => .ok (a, f) | .error e => .error e := by
  cases x <;> rfl

theorem bind_eq_ok {α β : Type} {x : Rd α} {g : α → Rd β} {f : File} {b : β} {r : File}
    (h : (x >>= g) f = .ok (b, r)) : ∃ a f', x f = .ok (a, f') ∧ g a f' = .ok (b, r) := by
  rw [bind_apply] at h
  cases hx : x f with
  | error e => rw [hx] at h; cases h
  | ok p =>
    obtain ⟨a, f'⟩ := p
    rw [hx] at h
    exact ⟨a, f', rfl, h⟩

theorem bind_of_ok {α β : Type} {x : Rd α} {g : α → Rd β} {f f' : File} {a : α}
    (h : x f = .ok (a, f')) : (x >>= g) f = g a f' := by
  rw [bind_apply, h]

theorem lift_eq_ok {α : Type} {x : Except Err α} {f f' : File} {a : α}
    (h : (liftM x : Rd α) f = .ok (a, f')) : x = .ok a ∧ f' = f := by
  rw [lift_apply] at h
  cases x with
  | error e => cases h
  | ok b =>
    simp only [Except.ok.injEq, Prod.mk.injEq] at h
    exact ⟨by rw [h.1], h.2.symm⟩

theorem readBytes_nat (n : Nat) (f : File) : readBytes (n : Int) f = .ok (f.take n, f.drop n) := by
  unfold readBytes
  rw [if_neg (by omega), if_neg (by omega), Int.toNat_natCast]

/-- Reading bytes and not reaching the end of the file: more bytes behind it make no difference. -/
theorem readBytes_ext {n : Int} {p b rest : File} (h : readBytes n p = .ok (b, rest)) (hr : rest ≠ [])
    (s : File) : readBytes n (p ++ s) = .ok (b, rest ++ s) := by
  unfold readBytes at *
  split at h
  · cases h
  · rename_i h1
    rw [if_neg h1]
    split at h
    · cases h; exact absurd rfl hr
    · rename_i h2
      rw [if_neg h2]
      cases h
      have : n.toNat ≤ p.length := by
        by_contra hc
        exact hr (List.drop_eq_nil_of_le (by omega))
      rw [List.take_append_of_le_length this, List.drop_append_of_le_length this]

theorem readBytes_split {n : Int} {p b rest : File} (h : readBytes n p = .ok (b, rest)) :
    p = b ++ rest := by
  unfold readBytes at h
  split at h
  · cases h
  · split at h
    · cases h; simp
    · cases h; rw [List.take_append_drop]

theorem readBytes_length {n : Int} {p b rest : File} (h : readBytes n p = .ok (b, rest))
    (hr : rest ≠ []) : 0 ≤ n ∧ (b.length : Int) = n := by
  unfold readBytes at h
  split at h
  · cases h
  · split at h
    · cases h; exact absurd rfl hr
    · rename_i h1 h2
      cases h
      have : n.toNat < p.length := by
        by_contra hc
        exact hr (List.drop_eq_nil_of_le (by omega))
      rw [List.length_take, min_eq_left (by omega)]
      omega

/-- A marker is read iff there are four bytes. -/
theorem recordMark_eq_ok {f rest : File} {z : Int} :
    recordMark f = .ok (z, rest) ↔ ∃ b, f = b ++ rest ∧ int32 b = .ok z := by
  have h4 : readBytes 4 f = .ok (f.take 4, f.drop 4) := readBytes_nat 4 f
  unfold recordMark
  rw [bind_of_ok h4]
  constructor
  · intro h
    by_cases h0 : f.take 4 = []
    · rw [if_pos h0] at h
      obtain ⟨a, f', h1, -⟩ := bind_eq_ok h
      rw [throw_apply] at h1; cases h1
    · rw [if_neg h0] at h
      obtain ⟨h5, rfl⟩ := lift_eq_ok h
      exact ⟨f.take 4, (List.take_append_drop 4 f).symm, h5⟩
  · rintro ⟨b, rfl, hb⟩
    have hl := int32_length hb
    have ht : (b ++ rest).take 4 = b := by rw [← hl]; exact List.take_left ..
    have hd : (b ++ rest).drop 4 = rest := by rw [← hl]; exact List.drop_left ..
    rw [ht, hd, if_neg (by intro h; rw [h] at hl; cases hl)]
    exact lift_ok _ _ hb rest

theorem recordMark_mark (n : Nat) (h : n < 2 ^ 31) (f : File) :
    recordMark (mark n ++ f) = .ok ((n : Int), f) :=
  recordMark_eq_ok.2 ⟨mark n, rfl, int32_mark n h⟩

/-! ## Extension: what is behind the bytes read does not matter -/

/-- A reader that succeeds gives the same value if the file goes on, and leaves the additional bytes. -/
def Ext {α : Type} (r : Rd α) : Prop :=
  ∀ p v rest, r p = .ok (v, rest) → ∀ s, r (p ++ s) = .ok (v, rest ++ s)

/-- A reader never returns a longer file. -/
def Shrinks {α : Type} (r : Rd α) : Prop :=
  ∀ p v rest, r p = .ok (v, rest) → rest.length ≤ p.length

theorem Ext.pure {α : Type} (a : α) : Ext (pure a : Rd α) := by
  intro p v rest h s; cases h; rfl

theorem Ext.throw {α : Type} (e : Err) : Ext (throw e : Rd α) := by
  intro p v rest h s; cases h

theorem Ext.lift {α : Type} (x : Except Err α) : Ext (liftM x : Rd α) := by
  intro p v rest h s
  obtain ⟨h1, rfl⟩ := lift_eq_ok h
  exact lift_ok _ _ h1 _

theorem Ext.bind {α β : Type} {x : Rd α} {g : α → Rd β} (hx : Ext x) (hg : ∀ a, Ext (g a)) :
    Ext (x >>= g) := by
  intro p v rest h s
  obtain ⟨a, f', h1, h2⟩ := bind_eq_ok h
  rw [bind_of_ok (hx _ _ _ h1 s)]
  exact hg a _ _ _ h2 s

theorem Ext.ite {α : Type} {c : Prop} [Decidable c] {x y : Rd α} (hx : Ext x) (hy : Ext y) :
    Ext (if c then x else y) := by
  split
  · exact hx
  · exact hy

theorem Shrinks.pure {α : Type} (a : α) : Shrinks (pure a : Rd α) := by
  intro p v rest h; cases h; exact le_rfl

theorem Shrinks.throw {α : Type} (e : Err) : Shrinks (throw e : Rd α) := by
  intro p v rest h; cases h

theorem Shrinks.lift {α : Type} (x : Except Err α) : Shrinks (liftM x : Rd α) := by
  intro p v rest h
  obtain ⟨h1, rfl⟩ := lift_eq_ok h
  exact le_rfl

theorem Shrinks.bind {α β : Type} {x : Rd α} {g : α → Rd β} (hx : Shrinks x)
    (hg : ∀ a, Shrinks (g a)) : Shrinks (x >>= g) := by
  intro p v rest h
  obtain ⟨a, f', h1, h2⟩ := bind_eq_ok h
  exact (hg a _ _ _ h2).trans (hx _ _ _ h1)

theorem Shrinks.ite {α : Type} {c : Prop} [Decidable c] {x y : Rd α} (hx : Shrinks x)
    (hy : Shrinks y) : Shrinks (if c then x else y) := by
  split
  · exact hx
  · exact hy

/-- The bytes `readData` takes and what it makes of them, if it does not reach the end of the file. -/
theorem readData_eq_ok {dbl : List UInt8 → K} {t : DType} {n : Int} {p rest : File} {e : Entry K}
    (h : readData dbl t n p = .ok (e, rest)) (hr : rest ≠ []) :
    0 ≤ n ∧ ∃ b, p = b ++ rest ∧ (∀ s, readData dbl t n (p ++ s) = .ok (e, rest ++ s)) ∧
      (b.length : Int) = (if t ≠ .raw ∧ n.tdiv t.size > 1 then n.tdiv t.size * t.size else n) := by
  by_cases ht : t = .raw
  · subst ht
    have hd : ∀ p, readData dbl .raw n p = (readBytes n >>= fun b => pure (Entry.bytes b)) p :=
      fun p => rfl
    rw [hd] at h
    obtain ⟨b, f', h1, h2⟩ := bind_eq_ok h
    cases h2
    refine ⟨(readBytes_length h1 hr).1, b, readBytes_split h1, fun s => ?_, ?_⟩
    · rw [hd, bind_of_ok (readBytes_ext h1 hr s)]; rfl
    · rw [if_neg (by simp)]; exact (readBytes_length h1 hr).2
  · by_cases hn : n.tdiv t.size > 1
    · have hd : ∀ p, readData dbl t n p =
          (readBytes (n.tdiv t.size * t.size) >>= fun b => pure (decodeArr dbl t b)) p := by
        intro p
        unfold readData
        rw [if_neg ht]
        simp only [hn, if_true]
      rw [hd] at h
      obtain ⟨b, f', h1, h2⟩ := bind_eq_ok h
      cases h2
      refine ⟨?_, b, readBytes_split h1, fun s => ?_, ?_⟩
      · by_contra hc
        have : n.tdiv t.size ≤ 0 := by
          have := Int.tdiv_nonneg (a := -n) (b := t.size) (by omega) (by omega)
          rw [Int.neg_tdiv] at this; omega
        omega
      · rw [hd, bind_of_ok (readBytes_ext h1 hr s)]; rfl
      · rw [if_pos ⟨ht, hn⟩]; exact (readBytes_length h1 hr).2
    · have hd : ∀ p, readData dbl t n p =
          (readBytes n >>= fun b => liftM (decodeOne dbl t b)) p := by
        intro p
        unfold readData
        rw [if_neg ht]
        simp only [hn, if_false]
      rw [hd] at h
      obtain ⟨b, f', h1, h2⟩ := bind_eq_ok h
      obtain ⟨h5, rfl⟩ := lift_eq_ok h2
      refine ⟨(readBytes_length h1 hr).1, b, readBytes_split h1, fun s => ?_, ?_⟩
      · rw [hd, bind_of_ok (readBytes_ext h1 hr s)]
        exact lift_ok _ _ h5 _
      · rw [if_neg (by simp [hn])]; exact (readBytes_length h1 hr).2

theorem recordMark_nil : recordMark [] = .error .eofError := rfl

/-- Anatomy of a successful call: marker, data, the same marker. -/
theorem readEntry_anatomy {dbl : List UInt8 → K} {t : DType} {f rest : File} {e : Entry K}
    (h : readEntry dbl t f = .ok (e, rest)) :
    ∃ (n : Nat) (b : List UInt8), n < 2 ^ 31 ∧ f = mark n ++ b ++ mark n ++ rest ∧
      readData dbl t n (b ++ mark n ++ rest) = .ok (e, mark n ++ rest) ∧
      (∀ s, readData dbl t n (b ++ mark n ++ rest ++ s) = .ok (e, mark n ++ rest ++ s)) ∧
      (b.length : Int) = (if t ≠ .raw ∧ (n : Int).tdiv t.size > 1 then (n : Int).tdiv t.size * t.size
        else n) := by
  unfold readEntry at h
  obtain ⟨z, f1, h1, h2⟩ := bind_eq_ok h
  obtain ⟨d, f2, h3, h4⟩ := bind_eq_ok h2
  obtain ⟨z', f3, h5, h6⟩ := bind_eq_ok h4
  by_cases hz : z = z'
  swap
  · rw [if_pos hz] at h6
    obtain ⟨a, f', h7, -⟩ := bind_eq_ok h6
    cases h7
  subst hz
  rw [if_neg (by simp)] at h6
  cases h6
  have hne : f2 ≠ [] := by
    rintro rfl; rw [recordMark_nil] at h5; cases h5
  obtain ⟨hz0, b, hb, hext, hlen⟩ := readData_eq_ok h3 hne
  obtain ⟨m1, rfl, hm1⟩ := recordMark_eq_ok.1 h1
  obtain ⟨m2, rfl, hm2⟩ := recordMark_eq_ok.1 h5
  obtain ⟨n, rfl⟩ := Int.eq_ofNat_of_zero_le hz0
  have hn : n < 2 ^ 31 := by have := int32_lt hm1; omega
  have e1 := mark_of_int32 hm1 hn
  have e2 := mark_of_int32 hm2 hn
  subst e1; subst e2; subst hb
  refine ⟨n, b, hn, by simp [List.append_assoc], by rw [List.append_assoc]; exact h3, fun s => ?_, hlen⟩
  have := hext s
  simp only [List.append_assoc] at this ⊢
  exact this

theorem readEntry_of {dbl : List UInt8 → K} {t : DType} {n : Nat} {b rest : File} {e : Entry K}
    (hn : n < 2 ^ 31) (h : readData dbl t n (b ++ (mark n ++ rest)) = .ok (e, mark n ++ rest)) :
    readEntry dbl t (mark n ++ b ++ mark n ++ rest) = .ok (e, rest) := by
  unfold readEntry
  simp only [List.append_assoc]
  rw [bind_of_ok (recordMark_mark n hn _), bind_of_ok h, bind_of_ok (recordMark_mark n hn _)]
  simp only [ne_eq, not_true_eq_false, if_false]
  rfl

theorem Ext.readEntry (dbl : List UInt8 → K) (t : DType) : Ext (readEntry dbl t) := by
  intro p v rest h s
  obtain ⟨n, b, hn, rfl, -, h2, -⟩ := readEntry_anatomy h
  have := h2 s
  simp only [List.append_assoc] at this
  have := readEntry_of hn this
  simp only [List.append_assoc] at this ⊢
  exact this

theorem readEntry_consumes {dbl : List UInt8 → K} {t : DType} {f rest : File} {e : Entry K}
    (h : readEntry dbl t f = .ok (e, rest)) : rest.length + 8 ≤ f.length := by
  obtain ⟨n, b, hn, rfl, -, -, -⟩ := readEntry_anatomy h
  simp only [List.length_append, length_mark]
  omega

theorem Shrinks.readEntry (dbl : List UInt8 → K) (t : DType) : Shrinks (readEntry dbl t) := by
  intro p v rest h
  have := readEntry_consumes h
  omega

/-! ## C58 for one record -/

/-- Reading without `dtype` succeeds exactly on a complete record, gives the payload and leaves the file
behind the record. -/
theorem C58_record (dbl : List UInt8 → K) (f p rest : List UInt8) :
    readEntry dbl .raw f = .ok (.bytes p, rest) ↔ p.length < 2 ^ 31 ∧ f = record p ++ rest := by
  constructor
  · intro h
    obtain ⟨n, b, hn, rfl, h1, -, hl⟩ := readEntry_anatomy h
    rw [if_neg (by simp)] at hl
    have hl : b.length = n := by omega
    subst hl
    have : readData dbl .raw (b.length : Int) (b ++ mark b.length ++ rest) =
        .ok (.bytes b, mark b.length ++ rest) := by
      unfold readData
      rw [if_pos rfl, List.append_assoc, bind_of_ok (readBytes_nat _ _), List.take_left,
        List.drop_left]; rfl
    rw [this] at h1
    cases h1
    exact ⟨hn, by simp [record]⟩
  · rintro ⟨hp, rfl⟩
    unfold record
    refine readEntry_of hp ?_
    unfold readData
    rw [if_pos rfl, bind_of_ok (readBytes_nat _ _), List.take_left, List.drop_left]; rfl

example : readEntry (K := Nat) (fun _ => 0) .raw ([0, 0, 0, 2, 72, 105, 0, 0, 0, 2] ++ [1, 2]) =
    .ok (.bytes [72, 105], [1, 2]) :=
  (C58_record _ _ _ _).2 ⟨by decide, by decide⟩

theorem pieces_flatMap {α : Type} (k : Nat) (hk : 0 < k) (enc : α → List UInt8) (xs : List α)
    (h : ∀ x ∈ xs, (enc x).length = k) : pieces k (xs.flatMap enc) = xs.map enc := by
  have hl : (xs.flatMap enc).length = xs.length * k := by
    rw [List.length_flatMap, List.map_congr_left h, List.map_const', List.sum_replicate,
      smul_eq_mul]
  unfold pieces
  rw [hl, Nat.mul_div_cancel _ hk]
  clear hl
  induction xs with
  | nil => rfl
  | cons x xs ih =>
    have hx := h x (by simp)
    rw [List.length_cons, List.range_succ_eq_map, List.map_cons, List.map_map, List.map_cons]
    congr 1
    · simp only [List.flatMap_cons, Nat.zero_mul, List.drop_zero]
      rw [← hx]; exact List.take_left ..
    · rw [← ih fun y hy => h y (by simp [hy])]
      refine List.map_congr_left fun i _ => ?_
      simp only [Function.comp_apply, List.flatMap_cons, Nat.succ_eq_add_one]
      rw [show (i + 1) * k = (enc x).length + i * k by rw [hx]; ring, ← List.drop_drop, List.drop_left]

theorem length_flatMap_of {α : Type} (k : Nat) (enc : α → List UInt8) (xs : List α)
    (h : ∀ x ∈ xs, (enc x).length = k) : (xs.flatMap enc).length = xs.length * k := by
  rw [List.length_flatMap, List.map_congr_left h, List.map_const', List.sum_replicate, smul_eq_mul]

/-- Typed data of more than one element. -/
theorem readData_array (dbl : List UInt8 → K) (t : DType) (ht : t ≠ .raw) (b : List UInt8) (k : Nat)
    (hk : 1 < k) (hb : b.length = k * t.size) (rest : File) :
    readData dbl t b.length (b ++ rest) = .ok (decodeArr dbl t b, rest) := by
  have hs : (0 : Int) < t.size := by cases t <;> simp [DType.size]
  have hd : (b.length : Int).tdiv t.size = k := by
    rw [hb]; push_cast; exact Int.mul_tdiv_cancel _ hs.ne'
  unfold readData
  rw [if_neg ht]
  simp only [hd]
  rw [if_pos (by omega), show (k : Int) * t.size = ((b.length : Nat) : Int) by rw [hb]; push_cast; rfl,
    bind_of_ok (readBytes_nat _ _), List.take_left, List.drop_left]
  rfl

/-- Typed data of one element. -/
theorem readData_one (dbl : List UInt8 → K) (t : DType) (ht : t ≠ .raw) (b : List UInt8)
    (hb : b.length = t.size) (rest : File) (e : Entry K) (he : decodeOne dbl t b = .ok e) :
    readData dbl t b.length (b ++ rest) = .ok (e, rest) := by
  have hs : (0 : Int) < t.size := by cases t <;> simp [DType.size]
  have hd : (b.length : Int).tdiv t.size = 1 := by
    rw [hb]; exact Int.tdiv_self hs.ne'
  unfold readData
  rw [if_neg ht]
  simp only [hd]
  rw [if_neg (by omega), bind_of_ok (readBytes_nat _ _), List.take_left, List.drop_left]
  exact lift_ok _ _ he _

theorem decodeOne_int (dbl : List UInt8 → K) (z : Int) (h1 : -2 ^ 31 ≤ z) (h2 : z < 2 ^ 31) :
    decodeOne dbl .i4 (encInt z) = .ok (.int z) := by
  simp only [decodeOne, int32_encInt z h1 h2]; rfl

theorem pieceInt_of {b : List UInt8} {z : Int} (h : int32 b = .ok z) : pieceInt b = z := by
  unfold pieceInt; rw [h]

theorem decodeArr_ints_of (dbl : List UInt8 → K) (enc : Int → List UInt8) (xs : List Int)
    (hl : ∀ x ∈ xs, (enc x).length = 4) (hx : ∀ x ∈ xs, int32 (enc x) = .ok x) :
    decodeArr dbl .i4 (xs.flatMap enc) = .ints xs := by
  have h : (pieces 4 (xs.flatMap enc)).map pieceInt = xs := by
    rw [pieces_flatMap 4 (by omega) enc _ hl, List.map_map]
    conv_rhs => rw [← List.map_id xs]
    exact List.map_congr_left fun z hz => pieceInt_of (hx z hz)
  exact congrArg Entry.ints h

theorem decodeArr_ints (dbl : List UInt8 → K) (xs : List Int)
    (hx : ∀ x ∈ xs, -2 ^ 31 ≤ x ∧ x < 2 ^ 31) :
    decodeArr dbl .i4 (xs.flatMap encInt) = .ints xs :=
  decodeArr_ints_of dbl encInt xs (fun _ _ => length_encInt _)
    fun x h => int32_encInt x (hx x h).1 (hx x h).2

/-- What a record of integers is returned as: one element as a number, several as an array. -/
def intEntry (xs : List Int) : Entry K :=
  match xs with
  | [x] => .int x
  | xs => .ints xs

/-- A record of integers. -/
theorem C58_record_ints (dbl : List UInt8 → K) (xs : List Int) (rest : File) (h0 : xs ≠ [])
    (hl : xs.length * 4 < 2 ^ 31) (hx : ∀ x ∈ xs, -2 ^ 31 ≤ x ∧ x < 2 ^ 31) :
    readEntry dbl .i4 (record (xs.flatMap encInt) ++ rest) = .ok (intEntry xs, rest) := by
  have hlen : (xs.flatMap encInt).length = xs.length * 4 :=
    length_flatMap_of 4 _ _ fun _ _ => length_encInt _
  have hlt : (xs.flatMap encInt).length < 2 ^ 31 := by rw [hlen]; exact hl
  unfold record
  refine readEntry_of hlt ?_
  match xs, h0, hx, hlen with
  | [x], _, hx, hlen =>
    have hx := hx x (List.mem_singleton_self x)
    refine readData_one dbl .i4 (by simp) _ hlen _ _ ?_
    rw [List.flatMap_cons, List.flatMap_nil, List.append_nil]
    exact decodeOne_int dbl x hx.1 hx.2
  | x :: y :: l, _, hx, hlen =>
    rw [readData_array dbl .i4 (by simp) _ (x :: y :: l).length (by simp) hlen,
      decodeArr_ints dbl _ hx]
    rfl

example : readEntry (K := Nat) (fun _ => 0) .i4 (record ([2, -3, 7].flatMap encInt) ++ [9]) =
    .ok (.ints [2, -3, 7], [9]) :=
  C58_record_ints _ _ _ (by simp) (by decide) (by decide)

/-- A record of doubles, for any encoding of numbers in eight bytes that the decoding inverts. -/
theorem C58_record_floats (dbl : List UInt8 → K) (enc : K → List UInt8)
    (xs : List K) (henc : ∀ x ∈ xs, (enc x).length = 8 ∧ dbl (enc x) = x) (rest : File) (h0 : xs ≠ [])
    (hl : xs.length * 8 < 2 ^ 31) :
    readEntry dbl .f8 (record (xs.flatMap enc) ++ rest) =
      .ok (match xs with | [x] => .flt x | _ => .flts xs, rest) := by
  have hlen : (xs.flatMap enc).length = xs.length * 8 :=
    length_flatMap_of 8 _ _ fun x hx => (henc x hx).1
  unfold record
  refine readEntry_of (by omega) ?_
  match xs, h0, henc, hlen with
  | [x], _, henc, hlen =>
    have henc := henc x (by simp)
    refine readData_one dbl .f8 (by simp) _ (by rw [hlen]; rfl) _ _ ?_
    simp only [decodeOne, List.flatMap_cons, List.flatMap_nil, List.append_nil]
    rw [if_pos henc.1, henc.2]
  | x :: y :: l, _, henc, hlen =>
    rw [readData_array dbl .f8 (by simp) _ (x :: y :: l).length (by simp) hlen]
    simp only [decodeArr]
    rw [pieces_flatMap 8 (by omega) enc _ fun x hx => (henc x hx).1, List.map_map]
    congr 3
    conv_rhs => rw [← List.map_id (x :: y :: l)]
    exact List.map_congr_left fun z hz => (henc z hz).2

/-- A record of eight-byte strings. -/
theorem C58_record_strings (dbl : List UInt8 → K) (xs : List (List UInt8)) (rest : File) (h0 : xs ≠ [])
    (hl : xs.length * 8 < 2 ^ 31) (hx : ∀ x ∈ xs, x.length = 8) :
    readEntry dbl .s8 (record xs.flatten ++ rest) =
      .ok (match xs with | [x] => .bytes x | _ => .strs xs, rest) := by
  have hf : xs.flatten = xs.flatMap id := by rw [List.flatMap_id]
  rw [hf]
  have hlen : (xs.flatMap id).length = xs.length * 8 := length_flatMap_of 8 _ _ hx
  unfold record
  refine readEntry_of (by omega) ?_
  match xs, h0 with
  | [x], _ =>
    refine readData_one dbl .s8 (by simp) _ (by rw [hlen]; rfl) _ _ ?_
    simp [decodeOne]
  | x :: y :: l, _ =>
    rw [readData_array dbl .s8 (by simp) _ (x :: y :: l).length (by simp) hlen]
    simp only [decodeArr]
    rw [pieces_flatMap 8 (by omega) id _ hx, List.map_id]

/-- A successful typed read of a record whose length is a multiple of the item size takes exactly the
record. -/
theorem readEntry_whole {dbl : List UInt8 → K} {t : DType} {p rest rest' : File} {e : Entry K}
    (hp : p.length < 2 ^ 31) (hd : t.size ∣ p.length)
    (h : readEntry dbl t (record p ++ rest) = .ok (e, rest')) : rest' = rest := by
  obtain ⟨n, b, hn, he, -, -, hl⟩ := readEntry_anatomy h
  have hs : (0 : Int) < t.size := by cases t <;> simp [DType.size]
  unfold record at he
  simp only [List.append_assoc] at he
  obtain ⟨e1, e2⟩ := List.append_inj he rfl
  have hnp : n = p.length := by
    have h1 := int32_mark n hn
    rw [← e1, int32_mark _ hp] at h1
    have := Except.ok.inj h1
    omega
  subst hnp
  have hbl : b.length = p.length := by
    obtain ⟨k, hk⟩ := hd
    split at hl
    · rw [hk] at hl ⊢
      push_cast at hl
      rw [Int.mul_tdiv_cancel_left _ hs.ne'] at hl
      have : (b.length : Int) = ((t.size * k : Nat) : Int) := by rw [hl]; push_cast; ring
      exact_mod_cast this
    · omega
  obtain ⟨-, e3⟩ := List.append_inj e2 hbl.symm
  exact (List.append_cancel_left e3).symm

/-- A record cut off at any byte is refused, whatever type is asked for. -/
theorem C58_truncated (dbl : List UInt8 → K) (t : DType) (p : List UInt8) (hp : p.length < 2 ^ 31)
    (hd : t.size ∣ p.length) (k : Nat) (hk : k < (record p).length) :
    ∃ e, readEntry dbl t ((record p).take k) = .error e := by
  cases h : readEntry dbl t ((record p).take k) with
  | error e => exact ⟨e, rfl⟩
  | ok r =>
    obtain ⟨v, rest⟩ := r
    have h2 := Ext.readEntry dbl t _ _ _ h ((record p).drop k)
    rw [List.take_append_drop] at h2
    have h3 : rest ++ (record p).drop k = [] :=
      readEntry_whole (rest := []) hp hd (by rw [List.append_nil]; exact h2)
    have h4 : (record p).drop k = [] := (List.append_eq_nil_iff.1 h3).2
    rw [List.drop_eq_nil_iff] at h4
    omega

example : ∃ e, readEntry (K := Nat) (fun _ => 0) .f8
    ((record (List.replicate 16 0)).take 21) = .error e :=
  C58_truncated _ _ _ (by decide) (by decide) _ (by decide)

/-- A record whose closing marker differs from the opening one is refused. -/
theorem C58_markers (dbl : List UInt8 → K) (t : DType) (p rest : List UInt8) (n : Nat)
    (hp : p.length < 2 ^ 31) (hn : n < 2 ^ 31) (hd : t.size ∣ p.length) (hne : n ≠ p.length) :
    ∃ e, readEntry dbl t (mark p.length ++ p ++ mark n ++ rest) = .error e := by
  cases h : readEntry dbl t (mark p.length ++ p ++ mark n ++ rest) with
  | error e => exact ⟨e, rfl⟩
  | ok r =>
    exfalso
    obtain ⟨v, rest'⟩ := r
    obtain ⟨m, b, hm, he, -, -, hl⟩ := readEntry_anatomy h
    have hs : (0 : Int) < t.size := by cases t <;> simp [DType.size]
    simp only [List.append_assoc] at he
    obtain ⟨e1, e2⟩ := List.append_inj he rfl
    have hmp : m = p.length := by
      have h1 := int32_mark m hm
      rw [← e1, int32_mark _ hp] at h1
      have := Except.ok.inj h1
      omega
    subst hmp
    have hbl : b.length = p.length := by
      obtain ⟨k, hk⟩ := hd
      split at hl
      · rw [hk] at hl ⊢
        push_cast at hl
        rw [Int.mul_tdiv_cancel_left _ hs.ne'] at hl
        have : (b.length : Int) = ((t.size * k : Nat) : Int) := by rw [hl]; push_cast; ring
        exact_mod_cast this
      · omega
    obtain ⟨-, e3⟩ := List.append_inj e2 hbl.symm
    obtain ⟨e4, -⟩ := List.append_inj e3 rfl
    have h1 := int32_mark n hn
    rw [e4, int32_mark _ hp] at h1
    have := Except.ok.inj h1
    omega

example : ∃ e, readEntry (K := Nat) (fun _ => 0) .raw (mark 2 ++ [72, 105] ++ mark 3 ++ [1]) = .error e :=
  C58_markers (fun _ => 0) .raw [72, 105] [1] 3 (by decide) (by decide) (by decide) (by decide)

/-- Without the condition on the length the claim fails: a record whose length is not a multiple of eight,
read as doubles, returns numbers if its last four payload bytes happen to look like a marker, and the file
is left inside the record. -/
theorem C58_odd_length_cut (dbl : List UInt8 → K) (b : List UInt8) (k : Nat) (hk : 1 < k)
    (hb : b.length = k * 8) (hl : k * 8 + 4 < 2 ^ 31) (rest : File) :
    readEntry dbl .f8 (record (b ++ mark (k * 8 + 4)) ++ rest) =
      .ok (.flts ((pieces 8 b).map dbl), mark (k * 8 + 4) ++ rest) := by
  generalize hn : k * 8 + 4 = n at *
  have hl' : (b ++ mark n).length = n := by rw [List.length_append, hb, length_mark, hn]
  have h2 : (n : Int).tdiv (DType.f8.size : Int) = k := by
    rw [Int.tdiv_eq_ediv_of_nonneg (by omega)]
    change (n : Int) / 8 = k
    omega
  have h3 : readData dbl .f8 n (b ++ (mark n ++ (mark n ++ rest))) =
      .ok (.flts ((pieces 8 b).map dbl), mark n ++ (mark n ++ rest)) := by
    unfold readData
    rw [if_neg (by simp)]
    simp only [h2]
    rw [if_pos (by omega), show (k : Int) * (DType.f8.size : Int) = ((b.length : Nat) : Int) by
      rw [hb]; push_cast; rfl, bind_of_ok (readBytes_nat _ _), List.take_left, List.drop_left]
    rfl
  have := readEntry_of hl h3
  unfold record
  rw [hl']
  simp only [List.append_assoc] at this ⊢
  exact this

end Euphonic.CastepBin
