import Verif.Model.Utils
import Verif.Proofs.Res

/-! UTF-8 facts: encoding of ASCII and non-ASCII characters, splitting at byte offsets. -/

namespace Norm

theorem utf8Size_pos (c : Char) : 0 < c.utf8Size := by
  unfold Char.utf8Size; simp only; split
  · omega
  · split
    · omega
    · split <;> omega

theorem utf8Size_ascii {c : Char} (h : isAscii c = true) : c.utf8Size = 1 := by
  unfold isAscii at h
  unfold Char.utf8Size
  have h1 : c.val.toNat < 128 := of_decide_eq_true h
  refine if_pos ?_
  rw [UInt32.le_iff_toNat_le]; exact Nat.le_of_lt_succ h1

theorem encode_ascii {c : Char} (h : isAscii c = true) :
    String.utf8EncodeChar c = [charToByte c] := by
  unfold isAscii at h
  unfold String.utf8EncodeChar charToByte
  have h' : c.val.toNat < 128 := of_decide_eq_true h
  simp only
  rw [if_pos (by omega)]
  rfl

theorem encode_non_ascii {c : Char} (h : isAscii c = false) :
    ∀ b ∈ String.utf8EncodeChar c, 128 ≤ b.toNat := by
  unfold isAscii at h
  have h' : 128 ≤ c.val.toNat := Nat.le_of_not_lt (of_decide_eq_false h)
  intro b hb
  unfold String.utf8EncodeChar at hb
  simp only at hb
  rw [if_neg (by omega)] at hb
  split at hb
  · simp at hb; rcases hb with rfl | rfl <;> simp [UInt8.toNat_ofNat'] <;> omega
  · split at hb
    · simp at hb; rcases hb with rfl | rfl | rfl <;> simp [UInt8.toNat_ofNat'] <;> omega
    · simp at hb; rcases hb with rfl | rfl | rfl | rfl <;> simp [UInt8.toNat_ofNat'] <;> omega

@[simp] theorem strBytes_nil : strBytes [] = [] := rfl
@[simp] theorem strBytes_cons (c : Char) (s : List Char) :
    strBytes (c :: s) = String.utf8EncodeChar c ++ strBytes s := by simp [strBytes]
@[simp] theorem strBytes_append (s t : List Char) : strBytes (s ++ t) = strBytes s ++ strBytes t := by
  simp [strBytes]

@[simp] theorem strLen_nil : strLen [] = 0 := rfl
@[simp] theorem strLen_cons (c : Char) (s : List Char) : strLen (c :: s) = c.utf8Size + strLen s := by
  simp [strLen]
@[simp] theorem strLen_append (s t : List Char) : strLen (s ++ t) = strLen s + strLen t := by
  simp [strLen]

theorem strLen_eq_sum (s : List Char) : strLen s = (s.map lenUtf8).sum := by
  induction s with
  | nil => rfl
  | cons c s ih => simp [ih, lenUtf8]

theorem length_le_strLen (s : List Char) : s.length ≤ strLen s := by
  induction s with
  | nil => simp
  | cons c s ih => have := utf8Size_pos c; simp; omega

theorem strLen_eq_zero {s : List Char} : strLen s = 0 ↔ s = [] := by
  cases s with
  | nil => simp
  | cons c s => have := utf8Size_pos c; simp; omega

theorem strSplitR_append (a b : List Char) : strSplitR (a ++ b) (strLen a) = .ok (a, b) := by
  induction a with
  | nil => cases b <;> simp [strSplitR]
  | cons c a ih =>
    have hc := utf8Size_pos c
    obtain ⟨n, hn⟩ : ∃ n, strLen (c :: a) = n + 1 := ⟨c.utf8Size + strLen a - 1, by simp; omega⟩
    rw [hn]
    simp only [strLen_cons] at hn
    have h1 : c.utf8Size ≤ n + 1 := by omega
    have h2 : n + 1 - c.utf8Size = strLen a := by omega
    simp only [List.cons_append, strSplitR, h1, if_true, h2, ih]

@[simp] theorem strToR_append (a b : List Char) : strToR (a ++ b) (strLen a) = .ok a := by
  simp [strToR, strSplitR_append]

@[simp] theorem strFromR_append (a b : List Char) : strFromR (a ++ b) (strLen a) = .ok b := by
  simp [strFromR, strSplitR_append]

theorem strFromR_zero (s : List Char) : strFromR s 0 = .ok s := strFromR_append [] s

theorem charToByte_toNat {c : Char} (h : isAscii c = true) : (charToByte c).toNat = c.toNat := by
  simp [isAscii] at h
  simp [charToByte]; omega

theorem charToByte_inj {c d : Char} (hc : isAscii c = true) (hd : isAscii d = true)
    (h : charToByte c = charToByte d) : c = d := by
  have := congrArg UInt8.toNat h
  rw [charToByte_toNat hc, charToByte_toNat hd] at this
  exact Char.toNat_inj.mp this

theorem byteToChar_toNat {b : UInt8} : (byteToChar b).toNat = b.toNat := by
  have := b.toNat_lt
  unfold byteToChar
  have hv : b.toNat.isValidChar := Or.inl (by omega)
  simp only [Char.ofNat, hv, dif_pos]
  rfl

theorem byteToChar_charToByte {c : Char} (h : isAscii c = true) : byteToChar (charToByte c) = c := by
  apply Char.toNat_inj.mp
  rw [byteToChar_toNat, charToByte_toNat h]

theorem isAscii_byteToChar {b : UInt8} : isAscii (byteToChar b) = true ↔ b.toNat < 128 := by
  simp [isAscii, byteToChar_toNat]

theorem charToByte_byteToChar {b : UInt8} : charToByte (byteToChar b) = b := by
  apply UInt8.toNat_inj.mp
  simp [charToByte, byteToChar_toNat]

theorem byteToChar_inj {a b : UInt8} : byteToChar a = byteToChar b ↔ a = b := by
  constructor
  · intro h
    have := congrArg charToByte h
    simpa [charToByte_byteToChar] using this
  · rintro rfl; rfl

/-- A string is ASCII iff all its characters are. -/
theorem strIsAscii_iff (s : List Char) : strIsAscii s = true ↔ ∀ c ∈ s, isAscii c = true := by
  induction s with
  | nil => simp [strIsAscii]
  | cons c s ih =>
    have : strIsAscii (c :: s) = ((String.utf8EncodeChar c).all (fun b => b < 128) && strIsAscii s) := by
      simp [strIsAscii]
    rw [this]
    simp only [Bool.and_eq_true, ih, List.mem_cons, forall_eq_or_imp]
    constructor
    · rintro ⟨h1, h2⟩
      refine ⟨?_, h2⟩
      by_contra hc
      have hc : isAscii c = false := by simpa using hc
      obtain ⟨b, hb⟩ := List.exists_mem_of_ne_nil _ (String.utf8EncodeChar_ne_nil (c := c))
      have h3 := encode_non_ascii hc b hb
      have h4 := List.all_eq_true.mp h1 b hb
      simp [UInt8.lt_iff_toNat_lt] at h4
      omega
    · rintro ⟨h1, h2⟩
      refine ⟨?_, h2⟩
      rw [encode_ascii h1]
      have := charToByte_toNat h1
      simp [isAscii] at h1
      simp [UInt8.lt_iff_toNat_lt, this, h1]

theorem strBytes_ascii {s : List Char} (h : ∀ c ∈ s, isAscii c = true) :
    strBytes s = s.map charToByte := by
  induction s with
  | nil => rfl
  | cons c s ih =>
    rw [strBytes_cons, encode_ascii (h c (by simp)), ih (fun c hc => h c (by simp [hc]))]; rfl

theorem map_byteToChar_strBytes {s : List Char} (h : ∀ c ∈ s, isAscii c = true) :
    (strBytes s).map byteToChar = s := by
  rw [strBytes_ascii h, List.map_map]
  conv_rhs => rw [← List.map_id s]
  exact List.map_congr_left (fun c hc => byteToChar_charToByte (h c hc))

/-- Searching a byte below 128 in the encoding is searching an ASCII character. -/
theorem byte_mem_encode {c : Char} {b : UInt8} (hb : b.toNat < 128) :
    b ∈ String.utf8EncodeChar c ↔ c = byteToChar b := by
  constructor
  · intro h
    cases hc : isAscii c with
    | true =>
      rw [encode_ascii hc] at h
      simp at h
      rw [h, byteToChar_charToByte hc]
    | false => have := encode_non_ascii hc b h; omega
  · rintro rfl
    rw [encode_ascii (isAscii_byteToChar.mpr hb), charToByte_byteToChar]; simp

end Norm
