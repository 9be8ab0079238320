import Verif.SpecDebug
import Verif.Proofs.Calls

/-!
# Lemmas on what is printed -/

namespace Norm

open Spec

/-! ### Numbers -/

/-- The digit of a hexadecimal digit's character. -/
def hexDigit (c : Char) : Nat := if c.toNat < 97 then c.toNat - 48 else c.toNat - 87

def hexValue (l : List Char) : Nat := l.foldl (fun a c => 16 * a + hexDigit c) 0

theorem hexDigit_digitChar : ∀ n < 16, hexDigit n.digitChar = n ∧ n.digitChar ≠ '}' := by decide

theorem hex_toDigits (n : Nat) : hexValue (Nat.toDigits 16 n) = n ∧ '}' ∉ Nat.toDigits 16 n := by
  induction n using Nat.strongRecOn with
  | _ n ih =>
    by_cases h : n < 16
    · rw [Nat.toDigits_of_lt_base h]
      have := hexDigit_digitChar n h
      refine ⟨by simp [hexValue, this.1], ?_⟩
      simp only [List.mem_singleton]
      exact fun e => this.2 e.symm
    · rw [Nat.toDigits_of_base_le (by decide) (by omega)]
      obtain ⟨h1, h2⟩ := ih (n / 16) (by omega)
      have := hexDigit_digitChar (n % 16) (by omega)
      constructor
      · simp only [hexValue, List.foldl_append, List.foldl_cons, List.foldl_nil] at h1 ⊢
        rw [h1, this.1]
        omega
      · simp only [List.mem_append, List.mem_singleton, not_or]
        exact ⟨h2, fun e => this.2 e.symm⟩

theorem displayNat_injective {n k : Nat} (h : displayNat n = displayNat k) : n = k := by
  have := congrArg (fun l => Nat.ofDigitChars 10 l 0) h
  simpa only [displayNat, Nat.ofDigitChars_ten_toDigits] using this

theorem minus_not_mem_displayNat (n : Nat) : '-' ∉ displayNat n := fun h => by
  have := Nat.isDigit_of_mem_toDigits (by decide) (by decide) h
  revert this
  decide

theorem displayInt_injective {n k : Int} (h : displayInt n = displayInt k) : n = k := by
  cases n with
  | ofNat n =>
    cases k with
    | ofNat k => rw [displayNat_injective h]
    | negSucc k =>
      refine absurd ?_ (minus_not_mem_displayNat n)
      rw [show displayNat n = '-' :: displayNat (k + 1) from h]
      exact List.mem_cons_self
  | negSucc n =>
    cases k with
    | ofNat k =>
      refine absurd ?_ (minus_not_mem_displayNat k)
      rw [← show '-' :: displayNat (n + 1) = displayNat k from h]
      exact List.mem_cons_self
    | negSucc k =>
      have := displayNat_injective (List.cons.inj h).2
      simp_all

/-! ### Strings -/

/-- Read back an escaped character. -/
def unescape : List Char → Char × List Char
  | '\\' :: 'u' :: '{' :: l =>
    (Char.ofNat (hexValue (l.takeWhile (· ≠ '}'))), l.drop ((l.takeWhile (· ≠ '}')).length + 1))
  | '\\' :: c :: l =>
    (if c = '0' then Char.ofNat 0 else if c = 't' then '\t' else if c = 'r' then '\r' else if c = 'n' then '\n' else c, l)
  | c :: l => (c, l)
  | [] => (Char.ofNat 0, [])

theorem takeWhile_append_cons {α} {p : α → Bool} {l : List α} {a : α} {r : List α} (h : ∀ x ∈ l, p x) (ha : p a = false) :
    (l ++ a :: r).takeWhile p = l := by
  induction l with
  | nil => simp [ha]
  | cons b l ih =>
    rw [List.cons_append, List.takeWhile_cons, h b List.mem_cons_self, if_pos rfl,
      ih (fun x hx => h x (List.mem_cons_of_mem _ hx))]

theorem unescape_escapeDebug (e : Char → Bool) (c : Char) (r : List Char) : unescape (escapeDebug e c ++ r) = (c, r) := by
  unfold escapeDebug
  split; · subst_vars; rfl
  split; · subst_vars; rfl
  split; · subst_vars; rfl
  split; · subst_vars; rfl
  split; · subst_vars; rfl
  split; · subst_vars; rfl
  split
  · obtain ⟨h1, h2⟩ := hex_toDigits c.toNat
    have ht : ((Nat.toDigits 16 c.toNat ++ ['}']) ++ r).takeWhile (fun x => decide (x ≠ '}')) = Nat.toDigits 16 c.toNat := by
      rw [List.append_assoc, List.singleton_append]
      refine takeWhile_append_cons (fun x hx => ?_) (by decide)
      simp only [ne_eq, decide_not, Bool.not_eq_eq_eq_not, Bool.not_true, decide_eq_false_iff_not]
      intro e
      exact h2 (e ▸ hx)
    simp only [List.cons_append]
    unfold unescape
    simp only
    rw [ht, h1]
    simp
  · rename_i h _ _
    simp only [List.cons_append, List.nil_append]
    unfold unescape
    split
    · simp_all
    · simp_all
    · simp_all
    · simp_all

theorem escapeDebug_prefix {e : Char → Bool} {c d : Char} {r r' : List Char}
    (h : escapeDebug e c ++ r = escapeDebug e d ++ r') : c = d ∧ r = r' := by
  have := congrArg unescape h
  rw [unescape_escapeDebug, unescape_escapeDebug] at this
  exact Prod.mk.inj this

theorem escapeDebug_head (e : Char → Bool) (c : Char) : ∃ h t, escapeDebug e c = h :: t ∧ h ≠ '"' := by
  unfold escapeDebug
  iterate 7 (split; · exact ⟨_, _, rfl, by decide⟩)
  exact ⟨_, _, rfl, by assumption⟩

theorem debugStr_prefix {f g : Format} (hfg : f.escaped = g.escaped) {x y r r' : List Char}
    (h : debugStr f x ++ r = debugStr g y ++ r') : x = y ∧ r = r' := by
  unfold debugStr at h
  rw [hfg] at h
  simp only [List.cons_append, List.append_assoc, List.cons.injEq, true_and, List.nil_append] at h
  induction x generalizing y with
  | nil =>
    cases y with
    | nil => simpa using h
    | cons d y =>
      obtain ⟨k, t, hk, hne⟩ := escapeDebug_head g.escaped d
      simp only [List.flatMap_nil, List.nil_append, List.flatMap_cons, hk, List.cons_append, List.cons.injEq] at h
      exact absurd h.1.symm hne
  | cons c x ih =>
    cases y with
    | nil =>
      obtain ⟨k, t, hk, hne⟩ := escapeDebug_head g.escaped c
      simp only [List.flatMap_nil, List.nil_append, List.flatMap_cons, hk, List.cons_append, List.cons.injEq] at h
      exact absurd h.1 hne
    | cons d y =>
      simp only [List.flatMap_cons, List.append_assoc] at h
      obtain ⟨h1, h2⟩ := escapeDebug_prefix h
      obtain ⟨h3, h4⟩ := ih h2
      exact ⟨by rw [h1, h3], h4⟩

theorem debugStr_injective {f : Format} {x y : List Char} (h : debugStr f x = debugStr f y) : x = y :=
  (debugStr_prefix rfl (r := []) (r' := []) (by rw [h])).1

theorem debugTuple1_injective {f : Format} {n x y : List Char} (h : debugTuple1 f n x = debugTuple1 f n y) : x = y := by
  unfold debugTuple1 at h
  split at h
  · exact List.append_cancel_left (List.append_cancel_right h)
  · exact List.append_cancel_left (List.append_cancel_right h)

/-! ### Conditions -/

/-- What the loop writes for patterns with these texts, up to the last. -/
def altsText (f : Format) : List (List Char) → List Char
  | [] => []
  | [x] => debugStr f x
  | x :: y :: l => debugStr f x ++ (" || ".toList ++ altsText f (y :: l))

theorem debugLoop_eq (f : Format) (len : Nat) (c : List Pattern) : ∀ idx, idx + c.length = len →
    Condition.debugLoop f len c idx = altsText f (c.map (·.text)) := by
  induction c with
  | nil => intro _ _; rfl
  | cons p ps ih =>
    intro idx h
    rw [Condition.debugLoop, ih (idx + 1) (by simp at h; omega)]
    cases ps with
    | nil => rw [if_pos (by simpa using h)]; simp [altsText, Pattern.intoString]
    | cons p' ps =>
      rw [if_neg (by simp at h; omega)]
      simp [altsText, Pattern.intoString]

/-- What is written for a condition with these texts. -/
def condText (f : Format) : List (List Char) → List Char
  | [] => []
  | [x] => debugStr f x
  | l => '(' :: (altsText f l ++ [')'])

theorem condDebug_eq (f : Format) (c : Condition) : c.debug f = condText f (c.map (·.text)) := by
  cases c with
  | nil => rfl
  | cons p ps =>
    cases ps with
    | nil => rfl
    | cons p' ps =>
      show '(' :: (Condition.debugLoop f _ (p :: p' :: ps) 0 ++ [')']) = _
      rw [debugLoop_eq f _ _ 0 (by simp)]
      rfl

theorem altsText_prefix {f : Format} {x y : List (List Char)} {r r' : List Char} (hx : x ≠ []) (hy : y ≠ [])
    (h : altsText f x ++ ')' :: r = altsText f y ++ ')' :: r') : x = y ∧ r = r' := by
  induction x generalizing y with
  | nil => exact absurd rfl hx
  | cons a x ih =>
    cases y with
    | nil => exact absurd rfl hy
    | cons b y =>
      cases x with
      | nil =>
        cases y with
        | nil =>
          obtain ⟨h1, h2⟩ := debugStr_prefix rfl h
          exact ⟨by rw [h1], by simpa using h2⟩
        | cons b' y =>
          simp only [altsText, List.append_assoc] at h
          obtain ⟨-, h2⟩ := debugStr_prefix rfl h
          simp at h2
      | cons a' x =>
        cases y with
        | nil =>
          simp only [altsText, List.append_assoc] at h
          obtain ⟨-, h2⟩ := debugStr_prefix rfl h
          simp at h2
        | cons b' y =>
          simp only [altsText, List.append_assoc] at h
          obtain ⟨h1, h2⟩ := debugStr_prefix rfl h
          obtain ⟨h3, h4⟩ := ih (by simp) (by simp) (List.append_cancel_left h2)
          exact ⟨by rw [h1, h3], h4⟩

theorem condText_prefix {f : Format} {x y : List (List Char)} {r r' : List Char} (hx : x ≠ []) (hy : y ≠ [])
    (h : condText f x ++ r = condText f y ++ r') : x = y ∧ r = r' := by
  cases x with
  | nil => exact absurd rfl hx
  | cons a x =>
    cases y with
    | nil => exact absurd rfl hy
    | cons b y =>
      cases x with
      | nil =>
        cases y with
        | nil =>
          obtain ⟨h1, h2⟩ := debugStr_prefix rfl h
          exact ⟨by rw [h1], h2⟩
        | cons b' y => simp [condText, debugStr] at h
      | cons a' x =>
        cases y with
        | nil => simp [condText, debugStr] at h
        | cons b' y =>
          simp only [condText, List.cons_append, List.append_assoc, List.nil_append, List.cons.injEq, true_and] at h
          exact altsText_prefix (by simp) (by simp) h

/-- What is written for conditions with these texts. -/
def condsText (f : Format) : List (List (List Char)) → List Char
  | [] => []
  | [x] => condText f x
  | x :: y :: l => condText f x ++ (" && ".toList ++ condsText f (y :: l))

theorem condsText_injective {f : Format} {x y : List (List (List Char))} (hx : ∀ c ∈ x, c ≠ []) (hy : ∀ c ∈ y, c ≠ [])
    (h : condsText f x = condsText f y) : x = y := by
  have hne : ∀ (c : List (List Char)) (r : List Char), c ≠ [] → condText f c ++ r ≠ [] := by
    intro c r hc
    cases c with
    | nil => exact absurd rfl hc
    | cons a c => cases c <;> simp [condText, debugStr]
  have hne' : ∀ (c : List (List Char)) (l : List (List (List Char))), c ≠ [] → condsText f (c :: l) ≠ [] := by
    intro c l hc
    cases l with
    | nil => simpa [condsText] using hne c [] hc
    | cons d l => exact hne c _ hc
  induction x generalizing y with
  | nil =>
    cases y with
    | nil => rfl
    | cons b y => exact absurd h.symm (hne' b y (hy b List.mem_cons_self))
  | cons a x ih =>
    cases y with
    | nil => exact absurd h (hne' a x (hx a List.mem_cons_self))
    | cons b y =>
      have ha := hx a List.mem_cons_self
      have hb := hy b List.mem_cons_self
      cases x with
      | nil =>
        cases y with
        | nil =>
          have := (condText_prefix (r := []) (r' := []) ha hb (by simpa [condsText] using h)).1
          rw [this]
        | cons b' y =>
          have := (condText_prefix (r := []) ha hb (by simpa only [condsText, List.append_nil] using h)).2
          simp at this
      | cons a' x =>
        cases y with
        | nil =>
          have := (condText_prefix (r' := []) ha hb (by simpa only [condsText, List.append_nil] using h)).2
          simp at this
        | cons b' y =>
          obtain ⟨h1, h2⟩ := condText_prefix ha hb h
          rw [h1, ih (fun c hc => hx c (List.mem_cons_of_mem _ hc)) (fun c hc => hy c (List.mem_cons_of_mem _ hc))
            (List.append_cancel_left h2)]

theorem condsText_eq (f : Format) (cs : List Condition) :
    " && ".toList.intercalate (cs.map (Condition.debug f)) = condsText f (cs.map (·.map (·.text))) := by
  induction cs with
  | nil => rfl
  | cons c cs ih =>
    cases cs with
    | nil => simp [condsText, condDebug_eq]
    | cons d cs =>
      rw [List.map_cons, List.map_cons, List.intercalate_cons_cons, ← List.map_cons, ih]
      simp [condsText, condDebug_eq]

theorem altsText_eq (f : Format) (c : List (List Char)) : altsText f c = " || ".toList.intercalate (c.map (debugStr f)) := by
  induction c with
  | nil => rfl
  | cons x c ih =>
    cases c with
    | nil => simp [altsText]
    | cons y c =>
      rw [List.map_cons, List.map_cons, List.intercalate_cons_cons, ← List.map_cons, ← ih]
      simp [altsText]

theorem condText_eq {f : Format} {c : List (List Char)} (h : c ≠ []) : condText f c = conditionText f c := by
  cases c with
  | nil => exact absurd rfl h
  | cons x c =>
    cases c with
    | nil => simp [condText, conditionText]
    | cons y c =>
      rw [conditionText, if_neg (by simp), ← altsText_eq]
      rfl

theorem condsText_eq' {f : Format} {cs : List (List (List Char))} (h : ∀ c ∈ cs, c ≠ []) :
    condsText f cs = conditionsText f cs := by
  induction cs with
  | nil => rfl
  | cons c cs ih =>
    have hc := condText_eq (f := f) (h c List.mem_cons_self)
    have ih := ih (fun d hd => h d (List.mem_cons_of_mem _ hd))
    cases cs with
    | nil => simp [condsText, conditionsText, hc]
    | cons d cs =>
      rw [conditionsText, List.map_cons, List.map_cons, List.intercalate_cons_cons, ← List.map_cons, ← conditionsText, ← ih]
      simp [condsText, hc]

/-- A quote is written for every condition. -/
theorem quote_mem_condsText {f : Format} {cs : List (List (List Char))} (h : ∀ c ∈ cs, c ≠ []) (hne : cs ≠ []) :
    '"' ∈ condsText f cs := by
  cases cs with
  | nil => exact absurd rfl hne
  | cons c cs =>
    have hc : '"' ∈ condText f c := by
      cases c with
      | nil => exact absurd rfl (h [] List.mem_cons_self)
      | cons x c =>
        cases c with
        | nil => simp [condText, debugStr]
        | cons y c => simp [condText, altsText, debugStr]
    cases cs with
    | nil => exact hc
    | cons d cs => exact List.mem_append_left _ hc

/-! ### Settings -/

theorem debugStruct_eq (f : Format) (a : Algo) (st : Settings) : debugStruct f (algoName a)
    [("candidate_normalization".toList, debugBool st.normalization), ("case_sensitivity".toList, st.caseSensitivity.debug),
      ("scoring_scheme".toList, st.scheme.debug)] = metricText f.alternate a st := by
  have e1 : ",\n    ".toList = ",\n".toList ++ "    ".toList := by decide +kernel
  have e2 : " {\n    ".toList = " {\n".toList ++ "    ".toList := by decide +kernel
  have e3 : "    ..\n}".toList = "    ".toList ++ "..\n}".toList := by decide +kernel
  have e4 : "candidate_normalization: ".toList = "candidate_normalization".toList ++ ": ".toList := by decide +kernel
  have e5 : "case_sensitivity: ".toList = "case_sensitivity".toList ++ ": ".toList := by decide +kernel
  have e6 : "scoring_scheme: ".toList = "scoring_scheme".toList ++ ": ".toList := by decide +kernel
  have n1 : debugBool st.normalization = boolName st.normalization := by cases st.normalization <;> rfl
  have n2 : st.caseSensitivity.debug = caseName st.caseSensitivity := by cases st.caseSensitivity <;> rfl
  have n3 : st.scheme.debug = schemeName st.scheme := by cases st.scheme <;> rfl
  obtain ⟨alt, e⟩ := f
  unfold debugStruct metricText
  rw [if_neg (by simp), n1, n2, n3, e4, e5, e6]
  cases alt with
  | false =>
    simp only [Bool.false_eq_true, if_false, List.flatMap_cons, List.flatMap_nil, List.append_assoc, List.nil_append]
  | true =>
    simp only [if_true, e1, e2, e3, List.flatMap_cons, List.flatMap_nil, List.append_assoc, List.nil_append]

theorem boolName_true : boolName true = ['t', 'r', 'u', 'e'] := by decide +kernel
theorem boolName_false : boolName false = ['f', 'a', 'l', 's', 'e'] := by decide +kernel

theorem boolName_prefix {b b' : Bool} {r r' : List Char} (h : boolName b ++ r = boolName b' ++ r') :
    b = b' ∧ r = r' := by
  cases b <;> cases b' <;> simp only [boolName_true, boolName_false, List.cons_append, List.nil_append, List.cons.injEq] at h <;>
    first | exact ⟨rfl, by simpa using h⟩ | exact absurd h (by simp)

theorem caseName_sensitive : caseName .sensitive = ['S', 'e', 'n', 's', 'i', 't', 'i', 'v', 'e'] := by decide +kernel
theorem caseName_insensitive : caseName .insensitive = ['I', 'n', 's', 'e', 'n', 's', 'i', 't', 'i', 'v', 'e'] := by decide +kernel
theorem caseName_smart : caseName .smart = ['S', 'm', 'a', 'r', 't'] := by decide +kernel

theorem caseName_prefix {b b' : CaseSensitivity} {r r' : List Char} (h : caseName b ++ r = caseName b' ++ r') :
    b = b' ∧ r = r' := by
  cases b <;> cases b' <;> simp only [caseName_sensitive, caseName_insensitive, caseName_smart, List.cons_append, List.nil_append, List.cons.injEq] at h <;>
    first | exact ⟨rfl, by simpa using h⟩ | exact absurd h (by simp)

theorem schemeName_default : schemeName .default = ['D', 'e', 'f', 'a', 'u', 'l', 't'] := by decide +kernel
theorem schemeName_path : schemeName .path = ['P', 'a', 't', 'h'] := by decide +kernel
theorem schemeName_history : schemeName .history = ['H', 'i', 's', 't', 'o', 'r', 'y'] := by decide +kernel

theorem schemeName_prefix {b b' : FzfScheme} {r r' : List Char} (h : schemeName b ++ r = schemeName b' ++ r') :
    b = b' ∧ r = r' := by
  cases b <;> cases b' <;> simp only [schemeName_default, schemeName_path, schemeName_history, List.cons_append, List.nil_append, List.cons.injEq] at h <;>
    first | exact ⟨rfl, by simpa using h⟩ | exact absurd h (by simp)

theorem algoName_v1 : algoName .v1 = ['F', 'z', 'f', 'V', '1'] := by decide +kernel
theorem algoName_v2 : algoName .v2 = ['F', 'z', 'f', 'V', '2'] := by decide +kernel

theorem algoName_prefix {b b' : Algo} {r r' : List Char} (h : algoName b ++ r = algoName b' ++ r') :
    b = b' ∧ r = r' := by
  cases b <;> cases b' <;> simp only [algoName_v1, algoName_v2, List.cons_append, List.nil_append, List.cons.injEq] at h <;>
    first | exact ⟨rfl, by simpa using h⟩ | exact absurd h (by simp)

theorem metricText_injective {alt : Bool} {a a' : Algo} {st st' : Settings} (h : metricText alt a st = metricText alt a' st') :
    a = a' ∧ st = st' := by
  unfold metricText at h
  simp only [List.append_assoc] at h
  obtain ⟨h1, h⟩ := algoName_prefix h
  obtain ⟨h2, h⟩ := boolName_prefix (List.append_cancel_left (List.append_cancel_left h))
  obtain ⟨h3, h⟩ := caseName_prefix (List.append_cancel_left (List.append_cancel_left h))
  obtain ⟨h4, -⟩ := schemeName_prefix (List.append_cancel_left (List.append_cancel_left h))
  refine ⟨h1, ?_⟩
  cases st
  cases st'
  exact Settings.mk.injEq _ _ _ _ _ _ ▸ ⟨h3, h2, h4⟩

/-! ### Matrices -/

theorem length_displayNat_mono {n k : Nat} (h : n ≤ k) : (displayNat n).length ≤ (displayNat k).length := by
  have h1 := (Nat.length_toDigits_le_iff (b := 10) (n := k) (k := (displayNat k).length) (by decide)
    Nat.length_toDigits_pos).mp (Nat.le_refl _)
  exact (Nat.length_toDigits_le_iff (by decide) Nat.length_toDigits_pos).mpr (Nat.lt_of_le_of_lt h h1)

theorem ilog10_eq (n : Nat) : ilog10 n + 1 = (displayNat n).length := by
  induction n using Nat.strongRecOn with
  | _ n ih =>
    rw [ilog10]
    by_cases h : n < 10
    · rw [dif_pos h, displayNat, Nat.toDigits_of_lt_base h]
      rfl
    · rw [dif_neg h, displayNat, Nat.toDigits_of_base_le (by decide) (by omega), ih (n / 10) (by omega)]
      simp [displayNat]

/-- What printing needs of the items: the width is that of what is displayed, and larger items are not narrower. -/
structure MatrixItem.Ok {α : Type} (I : MatrixItem α) (slice : List α) : Prop where
  width : ∀ x ∈ slice, I.printedWidth x = .ok (I.display x).length
  mono : ∀ x ∈ slice, ∀ y ∈ slice, I.le x y → (I.display x).length ≤ (I.display y).length
  total : ∀ x y, I.le x y = false → I.le y x
  refl : ∀ x, I.le x x
  trans : ∀ x y z, I.le x y → I.le y z → I.le x z
  line : ∀ x ∈ slice, '\n' ∉ I.display x

theorem newline_not_mem_displayNat (n : Nat) : '\n' ∉ displayNat n := fun h => by
  have := Nat.isDigit_of_mem_toDigits (by decide) (by decide) h
  revert this
  decide

theorem MatrixItem.score_ok {slice : List Score} (h : ∀ x ∈ slice, 0 ≤ x) : MatrixItem.score.Ok slice where
  width x hx := by
    have := h x hx
    show (if x = 0 then Res.ok 1 else if x < 0 then .panic else .ok (ilog10 x.toNat + 1)) = _
    cases x with
    | ofNat n =>
      by_cases h0 : n = 0
      · subst h0; rfl
      · rw [if_neg (by simpa using h0), if_neg (by simp)]
        exact congrArg Res.ok (ilog10_eq n)
    | negSucc n => exact absurd this (by simp)
  mono x hx y hy hle := by
    have h1 := h x hx
    have h2 := h y hy
    have hle : x ≤ y := of_decide_eq_true hle
    cases x with
    | ofNat n =>
      cases y with
      | ofNat k => exact length_displayNat_mono (Int.ofNat_le.mp hle)
      | negSucc k => exact absurd h2 (by simp)
    | negSucc n => exact absurd h1 (by simp)
  total x y hle := by
    have : ¬ x ≤ y := of_decide_eq_false hle
    exact decide_eq_true (Int.le_of_lt (Int.not_le.mp this))
  refl x := decide_eq_true (Int.le_refl x)
  trans x y z h1 h2 := decide_eq_true (Int.le_trans (of_decide_eq_true h1) (of_decide_eq_true h2))
  line x hx := by
    have := h x hx
    cases x with
    | ofNat n => exact newline_not_mem_displayNat n
    | negSucc n => exact absurd this (by simp)

theorem MatrixItem.usize_ok (slice : List Nat) : MatrixItem.usize.Ok slice where
  width x _ := by
    show (if x = 0 then Res.ok 1 else .ok (ilog10 x + 1)) = _
    by_cases h0 : x = 0
    · subst h0; rfl
    · rw [if_neg h0]
      exact congrArg Res.ok (ilog10_eq x)
  mono _ _ _ _ hle := length_displayNat_mono (of_decide_eq_true hle)
  total x y hle := by
    have : ¬ x ≤ y := of_decide_eq_false hle
    exact decide_eq_true (by omega)
  refl x := decide_eq_true (Nat.le_refl x)
  trans x y z h1 h2 := decide_eq_true (Nat.le_trans (of_decide_eq_true h1) (of_decide_eq_true h2))
  line x _ := newline_not_mem_displayNat x

theorem maxR_spec {α : Type} {I : MatrixItem α} {slice : List α} (hI : I.Ok slice) {l : List α} (hl : l ≠ []) :
    ∃ a ∈ l, maxR I l = .ok a ∧ ∀ x ∈ l, I.le x a := by
  cases l with
  | nil => exact absurd rfl hl
  | cons b l =>
    have key : ∀ (l : List α) (b : α), ∃ a ∈ b :: l,
        l.foldl (fun a b => if I.le a b then b else a) b = a ∧ ∀ x ∈ b :: l, I.le x a := by
      intro l
      induction l with
      | nil => intro b; exact ⟨b, by simp, rfl, by simpa using hI.refl b⟩
      | cons c l ih =>
        intro b
        by_cases h : I.le b c
        · obtain ⟨a, ha, hf, hm⟩ := ih c
          refine ⟨a, List.mem_cons_of_mem _ ha, by simpa [h] using hf, ?_⟩
          intro x hx
          rcases List.mem_cons.mp hx with rfl | hx
          · exact hI.trans _ _ _ h (hm c List.mem_cons_self)
          · exact hm x hx
        · obtain ⟨a, ha, hf, hm⟩ := ih b
          refine ⟨a, ?_, by simpa [h] using hf, ?_⟩
          · rcases List.mem_cons.mp ha with rfl | ha
            · simp
            · exact List.mem_cons_of_mem _ (List.mem_cons_of_mem _ ha)
          intro x hx
          rcases List.mem_cons.mp hx with rfl | hx
          · exact hm _ List.mem_cons_self
          · rcases List.mem_cons.mp hx with rfl | hx
            · exact hI.trans _ _ _ (hI.total _ _ (by simpa using h)) (hm _ List.mem_cons_self)
            · exact hm x (List.mem_cons_of_mem _ hx)
    obtain ⟨a, ha, hf, hm⟩ := key l b
    exact ⟨a, ha, congrArg Res.ok hf, hm⟩

theorem readEach_ok {α : Type} {m : Matrix α} {cells : List Nat} (h : ∀ c ∈ cells, c < m.slice.length) :
    ∃ l, readEach m cells = .ok l ∧ l.length = cells.length ∧ (∀ x ∈ l, x ∈ m.slice) ∧
      ∀ c ∈ cells, ∀ x, m.slice[c]? = some x → x ∈ l := by
  induction cells with
  | nil => exact ⟨[], rfl, rfl, by simp, by simp⟩
  | cons c cells ih =>
    obtain ⟨l, h1, h2, h3, h4⟩ := ih (fun d hd => h d (List.mem_cons_of_mem _ hd))
    have hc := h c List.mem_cons_self
    refine ⟨m.slice[c] :: l, ?_, by simp [h2], ?_, ?_⟩
    · simp only [readEach, Matrix.get, getR, List.getElem?_eq_getElem hc, Res.unwrap, h1]
      rfl
    · intro x hx
      rcases List.mem_cons.mp hx with rfl | hx
      · exact List.getElem_mem hc
      · exact h3 x hx
    · intro d hd x hx
      rcases List.mem_cons.mp hd with rfl | hd
      · rw [List.getElem?_eq_getElem hc] at hx
        rw [Option.some.inj hx]
        exact List.mem_cons_self
      · exact List.mem_cons_of_mem _ (h4 d hd x hx)

theorem mem_rowsItems {w : Nat} : ∀ {k next c : Nat}, c ∈ rowsItems w next k ↔ ∃ i < k, c = next + i * w := by
  intro k
  induction k with
  | zero => intro next c; simp [rowsItems]
  | succ k ih =>
    intro next c
    rw [rowsItems, List.mem_cons, ih]
    constructor
    · rintro (rfl | ⟨i, hi, rfl⟩)
      · exact ⟨0, by omega, by simp⟩
      · exact ⟨i + 1, by omega, by rw [Nat.succ_mul]; omega⟩
    · rintro ⟨i, hi, rfl⟩
      cases i with
      | zero => left; simp
      | succ i => right; exact ⟨i, by omega, by rw [Nat.succ_mul]; omega⟩

theorem length_rowsItems (w next k : Nat) : (rowsItems w next k).length = k := by
  induction k generalizing next with
  | zero => rfl
  | succ k ih => simp [rowsItems, ih]

theorem getLast?_colsItems (next k : Nat) : (colsItems next (k + 1)).getLast? = some (next + k) := by
  induction k generalizing next with
  | zero => rfl
  | succ k ih =>
    rw [colsItems, colsItems, List.getLast?_cons_cons, ← colsItems, ih]
    congr 1
    omega

theorem mem_colsItems : ∀ {k next c : Nat}, c ∈ colsItems next k ↔ ∃ i < k, c = next + i := by
  intro k
  induction k with
  | zero => intro next c; simp [colsItems]
  | succ k ih =>
    intro next c
    rw [colsItems, List.mem_cons, ih]
    constructor
    · rintro (rfl | ⟨i, hi, rfl⟩)
      · exact ⟨0, by omega, by simp⟩
      · exact ⟨i + 1, by omega, by omega⟩
    · rintro ⟨i, hi, rfl⟩
      cases i with
      | zero => left; simp
      | succ i => right; exact ⟨i, by omega, by omega⟩

theorem writeEach_panic {α : Type} {body : α → Res (List Char)} {l : List α} {a : α} (ha : a ∈ l) (h : body a = .panic) :
    writeEach body l = .panic := by
  induction l with
  | nil => cases ha
  | cons b l ih =>
    rw [writeEach]
    rcases List.mem_cons.mp ha with rfl | ha
    · rw [h]; rfl
    · rw [ih ha]
      cases body b <;> rfl

namespace Matrix
variable {α : Type} {I : MatrixItem α} {m : Matrix α} {W L : Nat}

theorem debugCell_ok (hI : I.Ok m.slice) (hw : 0 < m.width)
    (hW : ∀ x ∈ m.slice, (I.display x).length ≤ W)
    (hL : ∀ i x, m.slice[i]? = some x → i % m.width + 1 = m.width → (I.display x).length ≤ L)
    {cell : Nat} (hc : cell < m.slice.length) :
    ∃ x, m.debugCell I W L cell = .ok x ∧ x.length = (if cell % m.width + 1 = m.width then L else W + 1) ∧ '\n' ∉ x := by
  have hmem : m.slice[cell] ∈ m.slice := List.getElem_mem hc
  have hnl : ∀ n, '\n' ∉ I.display m.slice[cell] ++ List.replicate n ' ' := by
    intro n hn
    rcases List.mem_append.mp hn with hn | hn
    · exact hI.line _ hmem hn
    · exact absurd (List.eq_of_mem_replicate hn) (by decide)
  have h1 := hW _ hmem
  unfold debugCell
  simp only [Matrix.get, getR, List.getElem?_eq_getElem hc, Res.unwrap, colOf, if_neg (Nat.ne_of_gt hw)]
  show ∃ x, Res.bind (I.printedWidth m.slice[cell]) (fun width => if cell % m.width + 1 = m.width then
      Res.bind (subR L width) (fun n => .ok (I.display m.slice[cell] ++ List.replicate n ' '))
    else Res.bind (Res.bind (subR W width) (fun y => .ok (y + 1)))
      (fun n => .ok (I.display m.slice[cell] ++ List.replicate n ' '))) = .ok x ∧ _
  rw [hI.width _ hmem]
  show ∃ x, (if cell % m.width + 1 = m.width then
      Res.bind (subR L (I.display m.slice[cell]).length)
        (fun n => .ok (I.display m.slice[cell] ++ List.replicate n ' '))
    else Res.bind (Res.bind (subR W (I.display m.slice[cell]).length) (fun y => .ok (y + 1)))
      (fun n => .ok (I.display m.slice[cell] ++ List.replicate n ' '))) = .ok x ∧ _
  by_cases hcol : cell % m.width + 1 = m.width
  · have h2 := hL cell _ (List.getElem?_eq_getElem hc) hcol
    rw [if_pos hcol, if_pos hcol, subR, if_pos h2]
    refine ⟨_, rfl, ?_, hnl _⟩
    simp only [List.length_append, List.length_replicate]
    omega
  · rw [if_neg hcol, if_neg hcol, subR, if_pos h1]
    refine ⟨_, rfl, ?_, hnl _⟩
    simp only [List.length_append, List.length_replicate]
    omega

/-- The cells of a row, from some column on. -/
theorem debugCells_ok (hI : I.Ok m.slice) (hW : ∀ x ∈ m.slice, (I.display x).length ≤ W)
    (hL : ∀ i x, m.slice[i]? = some x → i % m.width + 1 = m.width → (I.display x).length ≤ L) {row : Nat}
    (hr : row * m.width + m.width ≤ m.slice.length) : ∀ k col, col + (k + 1) = m.width →
    ∃ x, writeEach (m.debugCell I W L) (colsItems (row * m.width + col) (k + 1)) = .ok x ∧
      x.length = k * (W + 1) + L ∧ '\n' ∉ x := by
  intro k
  induction k with
  | zero =>
    intro col hcol
    have hm : (row * m.width + col) % m.width = col := by
      rw [Nat.mul_comm, Nat.mul_add_mod, Nat.mod_eq_of_lt (by omega)]
    obtain ⟨x, h1, h2, h3⟩ := debugCell_ok hI (by omega) hW hL (cell := row * m.width + col) (by omega)
    refine ⟨x, ?_, ?_, h3⟩
    · simp only [colsItems, writeEach, h1]
      exact congrArg Res.ok (List.append_nil x)
    · rw [hm, if_pos hcol] at h2
      simpa using h2
  | succ k ih =>
    intro col hcol
    have hm : (row * m.width + col) % m.width = col := by
      rw [Nat.mul_comm, Nat.mul_add_mod, Nat.mod_eq_of_lt (by omega)]
    obtain ⟨x, h1, h2, h3⟩ := debugCell_ok hI (by omega) hW hL (cell := row * m.width + col) (by omega)
    obtain ⟨y, h4, h5, h6⟩ := ih (col + 1) (by omega)
    refine ⟨x ++ y, ?_, ?_, ?_⟩
    · rw [colsItems, writeEach, h1, show row * m.width + col + 1 = row * m.width + (col + 1) by omega, h4]
      rfl
    · rw [hm, if_neg (by omega)] at h2
      rw [List.length_append, h2, h5, Nat.succ_mul]
      omega
    · intro hn
      rcases List.mem_append.mp hn with hn | hn
      exacts [h3 hn, h6 hn]

theorem debugRow_ok (hI : I.Ok m.slice) (hw : 0 < m.width) (hW : ∀ x ∈ m.slice, (I.display x).length ≤ W)
    (hL : ∀ i x, m.slice[i]? = some x → i % m.width + 1 = m.width → (I.display x).length ≤ L) {row : Nat}
    (hr : row * m.width + m.width ≤ m.slice.length) {a b : Char} (ha : a ≠ '\n') (hb : b ≠ '\n') :
    ∃ x, m.debugRow I W L a b (row * m.width) = .ok x ∧
      ∃ l, x = l ++ ['\n'] ∧ l.length = (m.width - 1) * (W + 1) + L + 2 ∧ '\n' ∉ l := by
  obtain ⟨x, h1, h2, h3⟩ := debugCells_ok hI hW hL hr (m.width - 1) 0 (by omega)
  have hcols : m.cols (row * m.width) = .ok (colsItems (row * m.width + 0) (m.width - 1 + 1)) := by
    simp only [cols, colOf, if_neg (Nat.ne_of_gt hw), Nat.mul_mod_left]
    simp only [Res.bind_ok, subR, if_pos (Nat.zero_le _)]
    rw [show m.width - 1 + 1 = m.width - 0 by omega]
    rfl
  refine ⟨a :: (x ++ [b, '\n']), ?_, a :: (x ++ [b]), by simp, by simp [h2], ?_⟩
  · unfold debugRow
    rw [hcols]
    show Res.bind (writeEach (m.debugCell I W L) (colsItems (row * m.width + 0) (m.width - 1 + 1))) _ = _
    rw [h1]
    rfl
  · simp only [List.mem_cons, List.mem_append, List.not_mem_nil, or_false, not_or]
    exact ⟨ha.symm, h3, hb.symm⟩

/-- Printing a matrix does not panic, and gives a table. -/
theorem debug_ok (hI : I.Ok m.slice) (hlen : m.slice.length = m.height * m.width) (hh : 0 < m.height) (hw : 0 < m.width) :
    ∃ n rows, rows.length = m.height ∧ Lines n rows ∧
      ((m.height = 1 ∧ m.debug I = .ok (rows.flatMap (· ++ ['\n']))) ∨
       (1 < m.height ∧ ∃ top bottom, Lines n [top, bottom] ∧
        m.debug I = .ok (top ++ ['\n'] ++ rows.flatMap (· ++ ['\n']) ++ bottom))) := by
  have hpos : 0 < m.height * m.width := Nat.mul_pos hh hw
  have hne : m.slice ≠ [] := by
    intro e
    rw [e] at hlen
    simp at hlen
    omega
  obtain ⟨mx, hmx, hmx', hmax⟩ := maxR_spec hI hne
  have hlast : ∀ c ∈ rowsItems m.width (m.width - 1) m.height, c < m.slice.length := by
    intro c hc
    obtain ⟨i, hi, rfl⟩ := mem_rowsItems.mp hc
    have : (i + 1) * m.width ≤ m.height * m.width := Nat.mul_le_mul_right _ hi
    rw [Nat.succ_mul] at this
    omega
  obtain ⟨lc, hlc, hlc1, hlc2, hlc3⟩ := readEach_ok hlast
  obtain ⟨lm, hlm, hlm', hlmax⟩ := maxR_spec hI (l := lc) (by
    intro e
    rw [e, length_rowsItems] at hlc1
    simp at hlc1
    omega)
  have hW : ∀ x ∈ m.slice, (I.display x).length ≤ (I.display mx).length := fun x hx => hI.mono x hx mx hmx (hmax x hx)
  have hL : ∀ i x, m.slice[i]? = some x → i % m.width + 1 = m.width → (I.display x).length ≤ (I.display lm).length := by
    intro i x hx hi
    have hilt : i < m.slice.length := (List.getElem?_eq_some_iff.mp hx).1
    have hmem : x ∈ lc := by
      refine hlc3 i (mem_rowsItems.mpr ⟨i / m.width, ?_, ?_⟩) x hx
      · rw [Nat.div_lt_iff_lt_mul hw]
        omega
      · have := Nat.div_add_mod i m.width
        rw [Nat.mul_comm] at this
        omega
    exact hI.mono x (hlc2 x hmem) lm (hlc2 lm hlm) (hlmax x hmem)
  have hcols : m.cols 0 = .ok (colsItems 0 (m.width - 1 + 1)) := by
    simp only [cols, colOf, if_neg (Nat.ne_of_gt hw), Nat.zero_mod]
    simp only [Res.bind_ok, subR, if_pos (Nat.zero_le _)]
    rw [show m.width - 1 + 1 = m.width - 0 by omega]
    rfl
  have hrows : ∀ c, c < m.width → m.rows c = .ok (rowsItems m.width c m.height) := by
    intro c hc
    simp only [rows, rowOf, if_neg (Nat.ne_of_gt hw), Nat.div_eq_of_lt hc]
    simp only [Res.bind_ok, subR, if_pos (Nat.zero_le _)]
    rfl
  have hbody : ∀ a b : Char, a ≠ '\n' → b ≠ '\n' → ∃ rows : List (List Char), rows.length = m.height ∧
      Lines ((m.width - 1) * ((I.display mx).length + 1) + (I.display lm).length + 2) rows ∧
      writeEach (m.debugRow I (I.display mx).length (I.display lm).length a b) (rowsItems m.width 0 m.height) =
        .ok (rows.flatMap (· ++ ['\n'])) := by
    intro a b ha hb
    have key : ∀ k row, row + k = m.height → ∃ rows : List (List Char), rows.length = k ∧
        Lines ((m.width - 1) * ((I.display mx).length + 1) + (I.display lm).length + 2) rows ∧
        writeEach (m.debugRow I (I.display mx).length (I.display lm).length a b) (rowsItems m.width (row * m.width) k) =
          .ok (rows.flatMap (· ++ ['\n'])) := by
      intro k
      induction k with
      | zero => intro row _; exact ⟨[], rfl, fun l hl => by simp at hl, rfl⟩
      | succ k ih =>
        intro row hrow
        obtain ⟨rs, h1, h2, h3⟩ := ih (row + 1) (by omega)
        obtain ⟨x, h4, l, rfl, h5, h6⟩ := debugRow_ok hI hw hW hL (row := row) (by
          have : (row + 1) * m.width ≤ m.height * m.width := Nat.mul_le_mul_right _ (by omega)
          rw [Nat.succ_mul] at this
          omega) ha hb
        refine ⟨l :: rs, by simp [h1], ?_, ?_⟩
        · intro y hy
          rcases List.mem_cons.mp hy with rfl | hy
          · exact ⟨h5, h6⟩
          · exact h2 y hy
        · rw [rowsItems, writeEach, h4, ← Nat.succ_mul, h3]
          rfl
    simpa using key m.height 0 (by omega)
  have hspaces : ∀ (n : Nat) (a b : Char), a ≠ '\n' → b ≠ '\n' →
      (a :: (List.replicate n ' ' ++ [b])).length = n + 2 ∧ '\n' ∉ a :: (List.replicate n ' ' ++ [b]) := by
    intro n a b ha hb
    refine ⟨by simp, ?_⟩
    simp only [List.mem_cons, List.mem_append, List.not_mem_nil, or_false, not_or]
    exact ⟨ha.symm, fun h => absurd (List.eq_of_mem_replicate h) (by decide), hb.symm⟩
  have hunfold : ∀ out, (do
      let body ← writeEach (m.debugRow I (I.display mx).length (I.display lm).length
        (if m.height = 1 then ('[', ']') else ('│', '│')).1 (if m.height = 1 then ('[', ']') else ('│', '│')).2)
        (rowsItems m.width 0 m.height)
      return (if m.height = 1 then [] else
          '┌' :: (List.replicate ((m.width - 1) * ((I.display mx).length + 1) + (I.display lm).length) ' ' ++ ['┐', '\n'])) ++
        body ++ (if m.height > 1 then
          '└' :: (List.replicate ((m.width - 1) * ((I.display mx).length + 1) + (I.display lm).length) ' ' ++ ['┘']) else []) :
          Res (List Char)) = .ok out → m.debug I = .ok out := by
    intro out hout
    unfold debug
    rw [if_neg (by simpa using hne)]
    simp only [hmx', Res.bind_ok, hI.width mx hmx, hcols, getLast?_colsItems, Res.unwrap, Nat.zero_add,
      hrows _ (show m.width - 1 < m.width by omega), hlc, hlm', hI.width lm (hlc2 lm hlm), subR,
      if_pos (show 1 ≤ m.width from hw), hrows 0 hw]
    exact hout
  by_cases h1 : m.height = 1
  · obtain ⟨rs, h2, h3, h4⟩ := hbody '[' ']' (by decide) (by decide)
    refine ⟨_, rs, h2, h3, .inl ⟨h1, hunfold _ ?_⟩⟩
    rw [if_pos h1, if_pos h1, if_neg (by omega)]
    show Res.bind (writeEach _ _) _ = _
    rw [h4]
    show Res.ok _ = _
    simp
  · obtain ⟨rs, h2, h3, h4⟩ := hbody '│' '│' (by decide) (by decide)
    refine ⟨_, rs, h2, h3, .inr ⟨by omega,
      '┌' :: (List.replicate ((m.width - 1) * ((I.display mx).length + 1) + (I.display lm).length) ' ' ++ ['┐']),
      '└' :: (List.replicate ((m.width - 1) * ((I.display mx).length + 1) + (I.display lm).length) ' ' ++ ['┘']), ?_,
      hunfold _ ?_⟩⟩
    rotate_left 1
    · rw [if_neg h1, if_neg h1, if_pos (by omega)]
      show Res.bind (writeEach _ _) _ = _
      rw [h4]
      show Res.ok _ = _
      simp
    · intro l hl
      simp only [List.mem_cons, List.not_mem_nil, or_false] at hl
      rcases hl with rfl | rfl
      exacts [hspaces _ _ _ (by decide) (by decide), hspaces _ _ _ (by decide) (by decide)]

theorem debug_panic (hlen : m.slice.length = m.height * m.width) (hw : 0 < m.width) {x : α} (hx : x ∈ m.slice)
    (hp : I.printedWidth x = .panic) : m.debug I = .panic := by
  obtain ⟨i, hi, rfl⟩ := List.getElem_of_mem hx
  have hpos : 0 < m.height := by
    rcases Nat.eq_zero_or_pos m.height with h | h
    · rw [h, Nat.zero_mul] at hlen
      omega
    · exact h
  have hcell : ∀ W L, m.debugCell I W L i = .panic := by
    intro W L
    unfold debugCell
    simp only [Matrix.get, getR, List.getElem?_eq_getElem hi, Res.unwrap, colOf, if_neg (Nat.ne_of_gt hw), Res.bind_ok, hp,
      Res.bind_panic]
  have hrow : ∀ W L a b, m.debugRow I W L a b (i / m.width * m.width) = .panic := by
    intro W L a b
    unfold debugRow
    simp only [cols, colOf, if_neg (Nat.ne_of_gt hw), Nat.mul_mod_left, Res.bind_ok, subR, if_pos (Nat.zero_le _), Res.pure_def,
      Nat.sub_zero]
    rw [writeEach_panic (mem_colsItems.mpr ⟨i % m.width, Nat.mod_lt _ hw, ?_⟩) (hcell W L)]
    · rfl
    · have := Nat.div_add_mod i m.width
      rw [Nat.mul_comm] at this
      exact this.symm
  have hbody : ∀ W L a b, writeEach (m.debugRow I W L a b) (rowsItems m.width 0 m.height) = .panic := by
    intro W L a b
    refine writeEach_panic (mem_rowsItems.mpr ⟨i / m.width, ?_, ?_⟩) (hrow W L a b)
    · rw [Nat.div_lt_iff_lt_mul hw]
      omega
    · omega
  have hrows : m.rows 0 = .ok (rowsItems m.width 0 m.height) := by
    simp only [rows, rowOf, if_neg (Nat.ne_of_gt hw), Nat.zero_div, Res.bind_ok, subR, if_pos (Nat.zero_le _)]
    rfl
  unfold debug
  rw [if_neg (by
    intro h
    rw [List.isEmpty_iff.mp h] at hi
    simp at hi)]
  cases maxR I m.slice with
  | panic => rfl
  | ok mx =>
    rw [Res.bind_ok]
    cases I.printedWidth mx with
    | panic => rfl
    | ok W =>
      rw [Res.bind_ok]
      cases m.cols 0 with
      | panic => rfl
      | ok cs =>
        rw [Res.bind_ok]
        cases Res.unwrap cs.getLast? with
        | panic => rfl
        | ok c =>
          rw [Res.bind_ok]
          cases m.rows c with
          | panic => rfl
          | ok rs =>
            rw [Res.bind_ok]
            cases readEach m rs with
            | panic => rfl
            | ok lc =>
              rw [Res.bind_ok]
              cases maxR I lc with
              | panic => rfl
              | ok lm =>
                rw [Res.bind_ok]
                cases I.printedWidth lm with
                | panic => rfl
                | ok L =>
                  rw [Res.bind_ok]
                  cases subR m.width 1 with
                  | panic => rfl
                  | ok w =>
                    simp only [Res.bind_ok, hrows, hbody, Res.bind_panic]

end Matrix

/-! ### Printing ranges -/

theorem displayNat_head (n : Nat) : ∃ c l, displayNat n = c :: l ∧ c ≠ ',' := by
  cases h : displayNat n with
  | nil => exact absurd h Nat.toDigits_ne_nil
  | cons c l =>
    refine ⟨c, l, rfl, ?_⟩
    rintro rfl
    have := Nat.isDigit_of_mem_toDigits (b := 10) (n := n) (c := ',') (by decide) (by decide)
      (by show ',' ∈ displayNat n; rw [h]; exact List.mem_cons_self)
    revert this
    decide

theorem rangeDebug_head (r : Range) : ∃ c l, r.debug = c :: l ∧ c ≠ ',' := by
  obtain ⟨c, l, h, hc⟩ := displayNat_head r.start
  exact ⟨c, l ++ "..".toList ++ displayNat r.stop, by simp [Range.debug, h], hc⟩

theorem loop_head {t : List Char} (ht : t.head? ≠ some ',') (l : List Range) (idx : Nat) :
    (debugRangesLoop l idx ++ t).head? ≠ some ',' := by
  cases l with
  | nil => exact ht
  | cons r l =>
    obtain ⟨c, l', h, hc⟩ := rangeDebug_head r
    simp [debugRangesLoop, h, hc]

/-- The loops print commas between the ranges exactly if the lengths are such. -/
theorem loop_iff {t t' : List Char} (ht : t.head? ≠ some ',') (ht' : t'.head? ≠ some ',') {l : List Range} (idx : Nat) :
    debugRangesLoop l idx ++ t = ", ".toList.intercalate (l.map Range.debug) ++ t' ↔
      (∀ (i : Nat) (r : Range), l[i]? = some r → (idx + i + 1 < r.stop - r.start ↔ i + 1 < l.length)) ∧ t = t' := by
  induction l generalizing idx with
  | nil => simp [debugRangesLoop, List.intercalate]
  | cons r l ih =>
    have hc : ", ".toList = [',', ' '] := rfl
    have hr : r.len = r.stop - r.start := rfl
    cases l with
    | nil =>
      have h2 : ", ".toList.intercalate ([r].map Range.debug) = r.debug := by simp [List.intercalate]
      rw [h2, debugRangesLoop, debugRangesLoop, List.append_nil, List.append_assoc, List.append_cancel_left_eq, hr]
      by_cases hlt : idx + 1 < r.stop - r.start
      · rw [if_pos hlt, hc]
        constructor
        · rintro rfl
          exact absurd rfl ht'
        · rintro ⟨h, -⟩
          have := (h 0 r rfl).mp hlt
          simp at this
      · rw [if_neg hlt, List.nil_append]
        refine ⟨fun h => ⟨fun i r' hi => ?_, h⟩, fun h => h.2⟩
        cases i with
        | zero => cases hi; simpa using hlt
        | succ i => cases hi
    | cons r2 l =>
      have h2 : ", ".toList.intercalate ((r :: r2 :: l).map Range.debug) =
          r.debug ++ (", ".toList ++ ", ".toList.intercalate ((r2 :: l).map Range.debug)) := by simp [List.intercalate]
      rw [h2, debugRangesLoop, List.append_assoc, List.append_assoc, List.append_assoc, List.append_cancel_left_eq, hr]
      by_cases hlt : idx + 1 < r.stop - r.start
      · rw [if_pos hlt, List.append_assoc, List.append_cancel_left_eq, ih]
        constructor
        · rintro ⟨h, rfl⟩
          refine ⟨fun i r' hi => ?_, rfl⟩
          cases i with
          | zero => cases hi; simpa using hlt
          | succ i =>
            have := h i r' hi
            simp only [List.length_cons] at this ⊢
            omega
        · rintro ⟨h, rfl⟩
          refine ⟨fun i r' hi => ?_, rfl⟩
          have := h (i + 1) r' hi
          simp only [List.length_cons] at this ⊢
          omega
      · rw [if_neg hlt, List.nil_append]
        constructor
        · intro h
          refine absurd ?_ (loop_head ht (r2 :: l) (idx + 1))
          rw [h, hc]
          rfl
        · rintro ⟨h, -⟩
          exact absurd ((h 0 r rfl).mpr (by simp)) hlt

end Norm
