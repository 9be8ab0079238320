import Verif.Model.Str

/-!
# `src/normalize.rs`
-/

namespace Norm

/-- `/repo/src/normalize.rs:43-321` `FIRST_BATCH`, transcribed mechanically from the source (code points in
hexadecimal, replacement characters literally). -/
def firstBatch : List (Nat × Char) := [
  (0x00C0, 'A'), (0x00C1, 'A'), (0x00C2, 'A'), (0x00C3, 'A'), (0x00C4, 'A'), (0x00C5, 'A'),
  (0x00C7, 'C'), (0x00C8, 'E'), (0x00C9, 'E'), (0x00CA, 'E'), (0x00CB, 'E'), (0x00CC, 'I'),
  (0x00CD, 'I'), (0x00CE, 'I'), (0x00CF, 'I'), (0x00D1, 'N'), (0x00D2, 'O'), (0x00D3, 'O'),
  (0x00D4, 'O'), (0x00D5, 'O'), (0x00D6, 'O'), (0x00D8, 'O'), (0x00D9, 'U'), (0x00DA, 'U'),
  (0x00DB, 'U'), (0x00DC, 'U'), (0x00DD, 'Y'), (0x00DF, 's'), (0x00E0, 'a'), (0x00E1, 'a'),
  (0x00E2, 'a'), (0x00E3, 'a'), (0x00E4, 'a'), (0x00E5, 'a'), (0x00E7, 'c'), (0x00E8, 'e'),
  (0x00E9, 'e'), (0x00EA, 'e'), (0x00EB, 'e'), (0x00EC, 'i'), (0x00ED, 'i'), (0x00EE, 'i'),
  (0x00EF, 'i'), (0x00F1, 'n'), (0x00F2, 'o'), (0x00F3, 'o'), (0x00F4, 'o'), (0x00F5, 'o'),
  (0x00F6, 'o'), (0x00F8, 'o'), (0x00F9, 'u'), (0x00FA, 'u'), (0x00FB, 'u'), (0x00FC, 'u'),
  (0x00FD, 'y'), (0x00FF, 'y'), (0x0101, 'a'), (0x0103, 'a'), (0x0105, 'a'), (0x0107, 'c'),
  (0x0109, 'c'), (0x010B, 'c'), (0x010D, 'c'), (0x010F, 'd'), (0x0111, 'd'), (0x0113, 'e'),
  (0x0115, 'e'), (0x0117, 'e'), (0x0119, 'e'), (0x011B, 'e'), (0x011D, 'g'), (0x011F, 'g'),
  (0x0121, 'g'), (0x0123, 'g'), (0x0125, 'h'), (0x0127, 'h'), (0x0129, 'i'), (0x012B, 'i'),
  (0x012D, 'i'), (0x012F, 'i'), (0x0130, 'I'), (0x0131, 'i'), (0x0135, 'j'), (0x0137, 'k'),
  (0x013A, 'l'), (0x013C, 'l'), (0x013E, 'l'), (0x0140, 'l'), (0x0142, 'l'), (0x0144, 'n'),
  (0x0146, 'n'), (0x0148, 'n'), (0x014D, 'o'), (0x014F, 'o'), (0x0151, 'o'), (0x0155, 'r'),
  (0x0157, 'r'), (0x0159, 'r'), (0x015B, 's'), (0x015D, 's'), (0x015F, 's'), (0x0161, 's'),
  (0x0163, 't'), (0x0165, 't'), (0x0167, 't'), (0x0169, 'u'), (0x016B, 'u'), (0x016D, 'u'),
  (0x016F, 'u'), (0x0171, 'u'), (0x0173, 'u'), (0x0175, 'w'), (0x0177, 'y'), (0x0178, 'Y'),
  (0x017A, 'z'), (0x017C, 'z'), (0x017E, 'z'), (0x017F, 's'), (0x0180, 'b'), (0x0181, 'B'),
  (0x0183, 'b'), (0x0186, 'O'), (0x0188, 'c'), (0x0189, 'D'), (0x018A, 'D'), (0x018C, 'd'),
  (0x018E, 'E'), (0x0190, 'E'), (0x0192, 'f'), (0x0193, 'G'), (0x0197, 'I'), (0x0199, 'k'),
  (0x019A, 'l'), (0x019C, 'M'), (0x019D, 'N'), (0x019E, 'n'), (0x019F, 'O'), (0x01A1, 'o'),
  (0x01A5, 'p'), (0x01AB, 't'), (0x01AD, 't'), (0x01AE, 'T'), (0x01B0, 'u'), (0x01B2, 'V'),
  (0x01B4, 'y'), (0x01B6, 'z'), (0x01CE, 'a'), (0x01D0, 'i'), (0x01D2, 'o'), (0x01D4, 'u'),
  (0x01DD, 'e'), (0x01E5, 'g'), (0x01E7, 'g'), (0x01E9, 'k'), (0x01EB, 'o'), (0x01F0, 'j'),
  (0x01F5, 'g'), (0x01F9, 'n'), (0x0201, 'a'), (0x0203, 'a'), (0x0205, 'e'), (0x0207, 'e'),
  (0x0209, 'i'), (0x020B, 'i'), (0x020D, 'o'), (0x020F, 'o'), (0x0211, 'r'), (0x0213, 'r'),
  (0x0215, 'u'), (0x0217, 'u'), (0x0219, 's'), (0x021B, 't'), (0x021F, 'h'), (0x0220, 'N'),
  (0x0221, 'd'), (0x0225, 'z'), (0x0227, 'a'), (0x0229, 'e'), (0x022F, 'o'), (0x0233, 'y'),
  (0x0234, 'l'), (0x0235, 'n'), (0x0236, 't'), (0x0237, 'j'), (0x023A, 'A'), (0x023B, 'C'),
  (0x023C, 'c'), (0x023D, 'L'), (0x023E, 'T'), (0x023F, 's'), (0x0240, 'z'), (0x0243, 'B'),
  (0x0244, 'U'), (0x0245, 'V'), (0x0246, 'E'), (0x0247, 'e'), (0x0248, 'J'), (0x0249, 'j'),
  (0x024A, 'Q'), (0x024B, 'q'), (0x024C, 'R'), (0x024D, 'r'), (0x024E, 'Y'), (0x024F, 'y'),
  (0x0250, 'a'), (0x0251, 'a'), (0x0253, 'b'), (0x0254, 'o'), (0x0255, 'c'), (0x0256, 'd'),
  (0x0257, 'd'), (0x0258, 'e'), (0x025B, 'e'), (0x025C, 'e'), (0x025D, 'e'), (0x025E, 'e'),
  (0x025F, 'j'), (0x0260, 'g'), (0x0261, 'g'), (0x0262, 'G'), (0x0265, 'h'), (0x0266, 'h'),
  (0x0268, 'i'), (0x026A, 'I'), (0x026B, 'l'), (0x026C, 'l'), (0x026D, 'l'), (0x026F, 'm'),
  (0x0270, 'm'), (0x0271, 'm'), (0x0272, 'n'), (0x0273, 'n'), (0x0274, 'N'), (0x0275, 'o'),
  (0x0279, 'r'), (0x027A, 'r'), (0x027B, 'r'), (0x027C, 'r'), (0x027D, 'r'), (0x027E, 'r'),
  (0x027F, 'r'), (0x0280, 'R'), (0x0281, 'R'), (0x0282, 's'), (0x0287, 't'), (0x0288, 't'),
  (0x0289, 'u'), (0x028B, 'v'), (0x028C, 'v'), (0x028D, 'w'), (0x028E, 'y'), (0x028F, 'Y'),
  (0x0290, 'z'), (0x0291, 'z'), (0x0297, 'c'), (0x0299, 'B'), (0x029A, 'e'), (0x029B, 'G'),
  (0x029C, 'H'), (0x029D, 'j'), (0x029E, 'k'), (0x029F, 'L'), (0x02A0, 'q'), (0x02AE, 'h'),
  (0x0363, 'a'), (0x0364, 'e'), (0x0365, 'i'), (0x0366, 'o'), (0x0367, 'u'), (0x0368, 'c'),
  (0x0369, 'd'), (0x036A, 'h'), (0x036B, 'm'), (0x036C, 'r'), (0x036D, 't'), (0x036E, 'v'),
  (0x036F, 'x')]

/-- `/repo/src/normalize.rs:333-508` `SECOND_BATCH`, transcribed mechanically from the source (code points in
hexadecimal, replacement characters literally). -/
def secondBatch : List (Nat × Char) := [
  (0x1D00, 'A'), (0x1D03, 'B'), (0x1D04, 'C'), (0x1D05, 'D'), (0x1D07, 'E'), (0x1D08, 'e'),
  (0x1D09, 'i'), (0x1D0A, 'J'), (0x1D0B, 'K'), (0x1D0C, 'L'), (0x1D0D, 'M'), (0x1D0E, 'N'),
  (0x1D0F, 'O'), (0x1D10, 'O'), (0x1D11, 'o'), (0x1D12, 'o'), (0x1D13, 'o'), (0x1D16, 'o'),
  (0x1D17, 'o'), (0x1D18, 'P'), (0x1D19, 'R'), (0x1D1A, 'R'), (0x1D1B, 'T'), (0x1D1C, 'U'),
  (0x1D1D, 'u'), (0x1D1E, 'u'), (0x1D1F, 'm'), (0x1D20, 'V'), (0x1D21, 'W'), (0x1D22, 'Z'),
  (0x1D62, 'i'), (0x1D63, 'r'), (0x1D64, 'u'), (0x1D65, 'v'), (0x1E01, 'a'), (0x1E03, 'b'),
  (0x1E05, 'b'), (0x1E07, 'b'), (0x1E0B, 'd'), (0x1E0D, 'd'), (0x1E0F, 'd'), (0x1E11, 'd'),
  (0x1E13, 'd'), (0x1E19, 'e'), (0x1E1B, 'e'), (0x1E1F, 'f'), (0x1E21, 'g'), (0x1E23, 'h'),
  (0x1E25, 'h'), (0x1E27, 'h'), (0x1E29, 'h'), (0x1E2B, 'h'), (0x1E2D, 'i'), (0x1E31, 'k'),
  (0x1E33, 'k'), (0x1E35, 'k'), (0x1E37, 'l'), (0x1E3B, 'l'), (0x1E3D, 'l'), (0x1E3F, 'm'),
  (0x1E41, 'm'), (0x1E43, 'm'), (0x1E45, 'n'), (0x1E47, 'n'), (0x1E49, 'n'), (0x1E4B, 'n'),
  (0x1E55, 'p'), (0x1E57, 'p'), (0x1E59, 'r'), (0x1E5B, 'r'), (0x1E5F, 'r'), (0x1E61, 's'),
  (0x1E63, 's'), (0x1E6B, 't'), (0x1E6D, 't'), (0x1E6F, 't'), (0x1E71, 't'), (0x1E73, 'u'),
  (0x1E75, 'u'), (0x1E77, 'u'), (0x1E7D, 'v'), (0x1E7F, 'v'), (0x1E81, 'w'), (0x1E83, 'w'),
  (0x1E85, 'w'), (0x1E87, 'w'), (0x1E89, 'w'), (0x1E8B, 'x'), (0x1E8D, 'x'), (0x1E8F, 'y'),
  (0x1E91, 'z'), (0x1E93, 'z'), (0x1E95, 'z'), (0x1E96, 'h'), (0x1E97, 't'), (0x1E98, 'w'),
  (0x1E99, 'y'), (0x1E9A, 'a'), (0x1E9B, 's'), (0x1EA1, 'a'), (0x1EA3, 'a'), (0x1EA4, 'A'),
  (0x1EA5, 'a'), (0x1EA6, 'A'), (0x1EA7, 'a'), (0x1EA8, 'A'), (0x1EA9, 'a'), (0x1EAA, 'A'),
  (0x1EAB, 'a'), (0x1EAC, 'A'), (0x1EAD, 'a'), (0x1EAE, 'A'), (0x1EAF, 'a'), (0x1EB0, 'A'),
  (0x1EB1, 'a'), (0x1EB2, 'A'), (0x1EB3, 'a'), (0x1EB4, 'A'), (0x1EB5, 'a'), (0x1EB6, 'A'),
  (0x1EB7, 'a'), (0x1EB9, 'e'), (0x1EBB, 'e'), (0x1EBD, 'e'), (0x1EBE, 'E'), (0x1EBF, 'e'),
  (0x1EC0, 'E'), (0x1EC1, 'e'), (0x1EC2, 'E'), (0x1EC3, 'e'), (0x1EC4, 'E'), (0x1EC5, 'e'),
  (0x1EC6, 'E'), (0x1EC7, 'e'), (0x1EC9, 'i'), (0x1ECB, 'i'), (0x1ECD, 'o'), (0x1ECF, 'o'),
  (0x1ED0, 'O'), (0x1ED1, 'o'), (0x1ED2, 'O'), (0x1ED3, 'o'), (0x1ED4, 'O'), (0x1ED5, 'o'),
  (0x1ED6, 'O'), (0x1ED7, 'o'), (0x1ED8, 'O'), (0x1ED9, 'o'), (0x1EDA, 'O'), (0x1EDB, 'o'),
  (0x1EDC, 'O'), (0x1EDD, 'o'), (0x1EDE, 'O'), (0x1EDF, 'o'), (0x1EE0, 'O'), (0x1EE1, 'o'),
  (0x1EE2, 'O'), (0x1EE3, 'o'), (0x1EE5, 'u'), (0x1EE7, 'u'), (0x1EE8, 'U'), (0x1EE9, 'u'),
  (0x1EEA, 'U'), (0x1EEB, 'u'), (0x1EEC, 'U'), (0x1EED, 'u'), (0x1EEE, 'U'), (0x1EEF, 'u'),
  (0x1EF0, 'U'), (0x1EF1, 'u'), (0x1EF3, 'y'), (0x1EF5, 'y'), (0x1EF7, 'y'), (0x1EF9, 'y')]

/-- `/repo/src/normalize.rs:520-531` `THIRD_BATCH`, transcribed mechanically from the source (code points in
hexadecimal, replacement characters literally). -/
def thirdBatch : List (Nat × Char) := [
  (0x2071, 'i'), (0x2095, 'h'), (0x2096, 'k'), (0x2097, 'l'), (0x2098, 'm'), (0x2099, 'n'),
  (0x209A, 'p'), (0x209B, 's'), (0x209C, 't'), (0x2184, 'c')]

/-- `/repo/src/normalize.rs:4-37` `linearize_batch`, the `while` loop from position `arrayIdx` on, with
`remaining = LINEARIZED_LEN - arrayIdx`. Indexing `batch[batch_idx]` past the end (a compile error
in Rust) is `Res.panic`. So is the `transmute::<u32, char>` of lines 20-24 of a number which is no `char`
(undefined behaviour in Rust); of one which is, it is `Char.ofNat`. -/
def linearizeGo (batch : List (Nat × Char)) (firstRaw : Nat) :
    (remaining arrayIdx batchIdx : Nat) → Res (List Char)
  | 0, _, _ => .ok []
  | remaining + 1, arrayIdx, batchIdx => do
    let raw := firstRaw + arrayIdx
    Res.assert (decide raw.isValidChar)
    let (from_, to_) ← getR batch batchIdx
    if from_ == raw then
      let rest ← linearizeGo batch firstRaw remaining (arrayIdx + 1) (batchIdx + 1)
      return to_ :: rest
    else
      let rest ← linearizeGo batch firstRaw remaining (arrayIdx + 1) batchIdx
      return Char.ofNat raw :: rest

/-- `/repo/src/normalize.rs:39,329,516` `*_BATCH_START` (`batch[0].0 as u32`; the `0` default is never
used, the tables are non-empty constants). -/
def batchStart (batch : List (Nat × Char)) : Nat := (batch.head?.map (·.1)).getD 0

/-- `/repo/src/normalize.rs:41,331,518` `*_BATCH_END` (`batch[len - 1].0 as u32`). -/
def batchEnd (batch : List (Nat × Char)) : Nat := (batch.getLast?.map (·.1)).getD 0

/-- `/repo/src/normalize.rs:4-37,323-327,510-514,533-537` `*_BATCH_LINEARIZED`. -/
def linearizeBatch (batch : List (Nat × Char)) : Res (List Char) :=
  linearizeGo batch (batchStart batch) (batchEnd batch - batchStart batch + 1) 0 0

/-- `/repo/src/normalize.rs:541-550` `is_normalized`. -/
def isNormalized (ch : Char) : Bool :=
  !((batchStart firstBatch ≤ ch.toNat && ch.toNat ≤ batchEnd firstBatch)
    || (batchStart secondBatch ≤ ch.toNat && ch.toNat ≤ batchEnd secondBatch)
    || (batchStart thirdBatch ≤ ch.toNat && ch.toNat ≤ batchEnd thirdBatch))

/-- Lookup in a linearized table: `*_BATCH_LINEARIZED[(ch - *_BATCH_START) as usize]`.
Source: `/repo/src/normalize.rs:554-568`. -/
def linearizedLookup (batch : List (Nat × Char)) (ch : Nat) : Res Char := do
  let table ← linearizeBatch batch
  let idx ← subR ch (batchStart batch)
  getR table idx

/-- `/repo/src/normalize.rs:554-568` `normalize`, with panics explicit. -/
def normalizeR (ch : Char) : Res Char :=
  if isNormalized ch then .ok ch
  else
    let n := ch.toNat
    if n ≤ batchEnd firstBatch then linearizedLookup firstBatch n
    else if n ≤ batchEnd secondBatch then linearizedLookup secondBatch n
    else linearizedLookup thirdBatch n

/-- `/repo/src/normalize.rs:554-568` `normalize` as used by the character comparison functions, which are
plain `fn(char, char) -> bool` pointers. The fallback `ch` on a panic is never used: `Norm.normalizeR_ok`
(C38) shows that `normalizeR` never panics. -/
def normalize (ch : Char) : Char :=
  match normalizeR ch with
  | .ok c => c
  | .panic => ch

end Norm
