import Verif.Model.Json
import Verif.Lemmas.Basic
import Batteries.Data.Char.Basic
/-!
# JSON text reads back
-/
namespace Verif

theorem hexVal_hexChar (d : Nat) (h : d < 16) : hexVal (hexChar d) = some d := by
  have : ∀ d : Fin 16, hexVal (hexChar d) = some d.val := by decide
  exact this ⟨d, h⟩

theorem jsChars_u (n : Nat) (hn : n < 65536) (t : Str) : jsChars (uEscape n ++ t) = (jsChars t).map fun r => (Char.ofNat n :: r.1, r.2) := by
  unfold uEscape
  simp only [List.cons_append, List.nil_append]
  rw [show ∀ a b c d : Char, jsChars ('\\' :: 'u' :: a :: b :: c :: d :: t) = (match hexVal a, hexVal b, hexVal c, hexVal d with
    | some a, some b, some c, some d => (jsChars t).map fun r => (Char.ofNat (a * 4096 + b * 256 + c * 16 + d) :: r.1, r.2)
    | _, _, _, _ => none) from fun a b c d => by conv_lhs => unfold jsChars
                                                 rfl]
  rw [hexVal_hexChar _ (by omega), hexVal_hexChar _ (by omega), hexVal_hexChar _ (by omega), hexVal_hexChar _ (by omega)]
  have : n / 4096 % 16 * 4096 + n / 256 % 16 * 256 + n / 16 % 16 * 16 + n % 16 = n := by omega
  dsimp only
  rw [this]

theorem jsChars_char (c : Char) (t : Str) : jsChars (jsonChar c ++ t) = (jsChars t).map fun r => (c :: r.1, r.2) := by
  unfold jsonChar
  by_cases h1 : c = '"'
  · rw [if_pos h1, h1]; simp [jsChars]
  rw [if_neg h1]
  by_cases h2 : c = '\\'
  · rw [if_pos h2, h2]; simp [jsChars]
  rw [if_neg h2]
  by_cases h3 : c = '\n'
  · rw [if_pos h3, h3]; simp [jsChars]
  rw [if_neg h3]
  by_cases h4 : c = '\r'
  · rw [if_pos h4, h4]; simp [jsChars]
  rw [if_neg h4]
  by_cases h5 : c = '\t'
  · rw [if_pos h5, h5]; simp [jsChars]
  rw [if_neg h5]
  by_cases h6 : c.toNat = 8
  · have : c = Char.ofNat 8 := by rw [← h6, Char.ofNat_toNat]
    rw [if_pos h6, this]; simp [jsChars]
  rw [if_neg h6]
  by_cases h7 : c.toNat = 12
  · have : c = Char.ofNat 12 := by rw [← h7, Char.ofNat_toNat]
    rw [if_pos h7, this]; simp [jsChars]
  rw [if_neg h7]
  by_cases h8 : c.toNat < 32 ∨ c = '<' ∨ c = '>' ∨ c = '&' ∨ c.toNat = 0x2028 ∨ c.toNat = 0x2029
  · rw [if_pos h8, jsChars_u, Char.ofNat_toNat]
    rcases h8 with h | h | h | h | h | h
    · omega
    · rw [h]; decide
    · rw [h]; decide
    · rw [h]; decide
    · omega
    · omega
  · rw [if_neg h8]
    rw [not_or] at h8
    simp only [List.cons_append, List.nil_append]
    conv_lhs => unfold jsChars
    split
    · exact absurd ‹_› (by simp)
    · rename_i h; cases h; exact absurd rfl h1
    · rename_i h; cases h; exact absurd rfl h2
    · rename_i h; cases h; exact absurd rfl h2
    · rename_i h; cases h
      rw [if_neg h8.1]

theorem jsChars_str (s t : Str) : jsChars (s.flatMap jsonChar ++ '"' :: t) = some (s, t) := by
  induction s with
  | nil => simp [jsChars]
  | cons c s ih =>
    rw [List.flatMap_cons, List.append_assoc, jsChars_char, ih]
    rfl

theorem jsWs_skip (ws t : Str) (h : ∀ c ∈ ws, isJsonWs c = true) : jsWs (ws ++ t) = jsWs t := by
  unfold jsWs
  induction ws with
  | nil => rfl
  | cons c ws ih =>
    rw [List.cons_append, List.dropWhile_cons_of_pos (h c List.mem_cons_self)]
    exact ih (fun x hx => h x (List.mem_cons_of_mem _ hx))

theorem jsonNl_ws (d : Nat) : ∀ c ∈ jsonNl d, isJsonWs c = true := by
  intro c hc
  unfold jsonNl rep at hc
  rcases List.mem_cons.mp hc with rfl | hc
  · decide
  · rw [List.eq_of_mem_replicate hc]; decide

/-- What follows a value does not continue a number. -/
def NoDigit : Str → Prop
  | [] => True
  | c :: _ => isDigit c = false

theorem jsNum_natStr (n : Nat) (rest : Str) (h : NoDigit rest) : jsNum (natStr n ++ rest) = some (n, rest) := by
  have hd : ∀ c ∈ natStr n, isDigit c = true := List.all_eq_true.mp (natStr_allDigits n)
  have h1 : (natStr n ++ rest).takeWhile isDigit = natStr n := by
    rw [List.takeWhile_append_of_pos hd]
    cases rest with
    | nil => simp
    | cons c r => rw [List.takeWhile_cons_of_neg (by rw [show isDigit c = false from h]; simp)]; simp
  have h2 : (natStr n ++ rest).dropWhile isDigit = rest := by
    rw [List.dropWhile_append_of_pos hd]
    cases rest with
    | nil => rfl
    | cons c r => rw [List.dropWhile_cons_of_neg (by rw [show isDigit c = false from h]; simp)]
  unfold jsNum
  dsimp only
  rw [h1, h2, if_neg (natStr_ne_nil n), strNat_natStr]

theorem digit_cases {c : Char} (h : isDigit c = true) :
    c = '0' ∨ c = '1' ∨ c = '2' ∨ c = '3' ∨ c = '4' ∨ c = '5' ∨ c = '6' ∨ c = '7' ∨ c = '8' ∨ c = '9' := by
  rw [isDigit_iff] at h
  have hn : c = Char.ofNat c.toNat := (Char.ofNat_toNat c).symm
  obtain ⟨h1, h2⟩ := h
  generalize c.toNat = n at hn h1 h2
  have : n = 48 ∨ n = 49 ∨ n = 50 ∨ n = 51 ∨ n = 52 ∨ n = 53 ∨ n = 54 ∨ n = 55 ∨ n = 56 ∨ n = 57 := by omega
  rcases this with rfl | rfl | rfl | rfl | rfl | rfl | rfl | rfl | rfl | rfl <;> subst hn <;> decide

/-- The first character of a value. -/
theorem jsonVal_head (d : Nat) (v : JVal) : ∃ c t, jsonVal d v = c :: t ∧ isJsonWs c = false ∧ c ≠ ']' := by
  cases v with
  | null => exact ⟨_, _, by unfold jsonVal; rfl, by decide, by decide⟩
  | bool b =>
    cases b with
    | true => exact ⟨_, _, by unfold jsonVal; rfl, by decide, by decide⟩
    | false => exact ⟨_, _, by unfold jsonVal; rfl, by decide, by decide⟩
  | num n =>
    cases hs : natStr n with
    | nil => exact absurd hs (natStr_ne_nil n)
    | cons c t =>
      have hc : isDigit c = true := List.all_eq_true.mp (natStr_allDigits n) c (by rw [hs]; exact List.mem_cons_self)
      refine ⟨c, t, by unfold jsonVal; exact hs, ?_, ?_⟩
      · rcases digit_cases hc with rfl | rfl | rfl | rfl | rfl | rfl | rfl | rfl | rfl | rfl <;> decide
      · exact isDigit_ne hc (by decide)
  | str s => exact ⟨_, _, by unfold jsonVal jsonStr; rfl, by decide, by decide⟩
  | arr l =>
    cases l with
    | nil => exact ⟨_, _, by unfold jsonVal; rfl, by decide, by decide⟩
    | cons v l => exact ⟨_, _, by unfold jsonVal; rfl, by decide, by decide⟩
  | obj l =>
    cases l with
    | nil => exact ⟨_, _, by unfold jsonVal; rfl, by decide, by decide⟩
    | cons e l => obtain ⟨k, v⟩ := e; exact ⟨_, _, by unfold jsonVal; rfl, by decide, by decide⟩

theorem jsWs_cons {c : Char} (t : Str) (h : isJsonWs c = false) : jsWs (c :: t) = c :: t := by
  unfold jsWs; rw [List.dropWhile_cons_of_neg (by rw [h]; simp)]

mutual
/-- Rounds needed for a value. -/
def jneed : JVal → Nat
  | .arr (v :: l) => 1 + jneed v + jneedL l
  | .obj ((_, v) :: l) => 2 + jneed v + jneedF l
  | _ => 1
/-- Rounds needed for the rest of an array. -/
def jneedL : List JVal → Nat
  | [] => 1
  | v :: l => 1 + jneed v + jneedL l
/-- Rounds needed for the rest of an object. -/
def jneedF : List (Str × JVal) → Nat
  | [] => 1
  | (_, v) :: l => 2 + jneed v + jneedF l
end

/-- What the array reader sees after a value. -/
theorem elems_noDigit (d : Nat) (l : List JVal) (rest : Str) : NoDigit (jsonElems d l ++ rest) := by
  cases l with
  | nil => unfold jsonElems jsonNl; exact (by decide : isDigit '\n' = false)
  | cons v l => unfold jsonElems; exact (by decide : isDigit ',' = false)

theorem fields_noDigit (d : Nat) (l : List (Str × JVal)) (rest : Str) : NoDigit (jsonFields d l ++ rest) := by
  cases l with
  | nil => unfold jsonFields jsonNl; exact (by decide : isDigit '\n' = false)
  | cons e l => obtain ⟨k, v⟩ := e; unfold jsonFields; exact (by decide : isDigit ',' = false)

theorem jsVal_lit (n : Nat) (s t : Str) : (jsWs s = 'n' :: 'u' :: 'l' :: 'l' :: t → jsVal (n + 1) s = some (.null, t)) ∧
    (jsWs s = 't' :: 'r' :: 'u' :: 'e' :: t → jsVal (n + 1) s = some (.bool true, t)) ∧
    (jsWs s = 'f' :: 'a' :: 'l' :: 's' :: 'e' :: t → jsVal (n + 1) s = some (.bool false, t)) ∧
    (jsWs s = '"' :: t → jsVal (n + 1) s = (jsChars t).map fun r => (.str r.1, r.2)) := by
  refine ⟨?_, ?_, ?_, ?_⟩ <;> (intro h; conv_lhs => unfold jsVal) <;> rw [h] <;> rfl

theorem jsVal_open (n : Nat) (s t : Str) : (jsWs s = '[' :: t → jsVal (n + 1) s = match jsWs t with
      | ']' :: t => some (.arr [], t)
      | t => (jsVal n t).bind fun r => (jsElems n r.2).map fun q => (.arr (r.1 :: q.1), q.2)) ∧
    (jsWs s = '{' :: t → jsVal (n + 1) s = match jsWs t with
      | '}' :: t => some (.obj [], t)
      | t => (jsField n t).bind fun r => (jsFields n r.2).map fun q => (.obj (r.1 :: q.1), q.2)) := by
  refine ⟨?_, ?_⟩ <;> (intro h; conv_lhs => unfold jsVal) <;> rw [h] <;> rfl

theorem jsVal_num (n : Nat) (s t : Str) (c : Char) (hc : isDigit c = true) (h : jsWs s = c :: t) :
    jsVal (n + 1) s = (jsNum (c :: t)).map fun r => (.num r.1, r.2) := by
  conv_lhs => unfold jsVal
  rw [h]
  rcases digit_cases hc with rfl | rfl | rfl | rfl | rfl | rfl | rfl | rfl | rfl | rfl <;> rfl

theorem jsElems_step (n : Nat) (s t : Str) : (jsWs s = ']' :: t → jsElems (n + 1) s = some ([], t)) ∧
    (jsWs s = ',' :: t → jsElems (n + 1) s = (jsVal n t).bind fun r => (jsElems n r.2).map fun q => (r.1 :: q.1, q.2)) := by
  refine ⟨?_, ?_⟩ <;> (intro h; conv_lhs => unfold jsElems) <;> rw [h] <;> rfl

theorem jsFields_step (n : Nat) (s t : Str) : (jsWs s = '}' :: t → jsFields (n + 1) s = some ([], t)) ∧
    (jsWs s = ',' :: t → jsFields (n + 1) s = (jsField n t).bind fun r => (jsFields n r.2).map fun q => (r.1 :: q.1, q.2)) := by
  refine ⟨?_, ?_⟩ <;> (intro h; conv_lhs => unfold jsFields) <;> rw [h] <;> rfl

theorem jsVal_arr (n : Nat) (s t c' : Str) (c : Char) (h : jsWs s = '[' :: t) (ht : jsWs t = c :: c') (hc : c ≠ ']') :
    jsVal (n + 1) s = (jsVal n (c :: c')).bind fun r => (jsElems n r.2).map fun q => (.arr (r.1 :: q.1), q.2) := by
  rw [(jsVal_open n s t).1 h, ht]
  split
  · rename_i h; cases h; exact absurd rfl hc
  · rfl

theorem jsVal_ws (n : Nat) (ws t : Str) (h : ∀ c ∈ ws, isJsonWs c = true) : jsVal n (ws ++ t) = jsVal n t := by
  cases n with
  | zero => unfold jsVal; rfl
  | succ n =>
    conv_lhs => unfold jsVal
    conv_rhs => unfold jsVal
    rw [jsWs_skip ws t h]

theorem jsField_ws (n : Nat) (ws t : Str) (h : ∀ c ∈ ws, isJsonWs c = true) : jsField n (ws ++ t) = jsField n t := by
  cases n with
  | zero => unfold jsField; rfl
  | succ n =>
    conv_lhs => unfold jsField
    conv_rhs => unfold jsField
    rw [jsWs_skip ws t h]

/-- Reading a field given how its value reads. -/
theorem jsField_json (n : Nat) (k s t : Str) (v : JVal) (hv : jsVal n s = some (v, t)) :
    jsField (n + 1) (jsonStr k ++ [':', ' '] ++ s) = some ((k, v), t) := by
  have h1 : ∀ (s t : Str), jsWs s = '"' :: t → jsField (n + 1) s = (jsChars t).bind fun k =>
      match jsWs k.2 with
      | ':' :: t => (jsVal n t).map fun r => ((k.1, r.1), r.2)
      | _ => none := by
    intro s t h
    conv_lhs => unfold jsField
    rw [h]; rfl
  have h2 : ∀ (k s t : Str), jsWs s = ':' :: t → (match jsWs s with
      | ':' :: t => (jsVal n t).map fun r => ((k, r.1), r.2)
      | _ => none) = (jsVal n t).map fun r => ((k, r.1), r.2) := by
    intro k s t h
    rw [h]; rfl
  unfold jsonStr
  simp only [List.cons_append, List.append_assoc, List.nil_append]
  rw [h1 _ _ (jsWs_cons _ (by decide)), jsChars_str]
  simp only [Option.bind_some]
  rw [h2 _ _ _ (jsWs_cons _ (by decide))]
  rw [show (' ' :: s) = [' '] ++ s from rfl, jsVal_ws n [' '] s (by intro c hc; rw [List.mem_singleton] at hc; rw [hc]; rfl), hv]
  rfl

mutual
theorem jsVal_json : ∀ (v : JVal) (d n : Nat) (rest : Str), jneed v ≤ n → NoDigit rest → jsVal n (jsonVal d v ++ rest) = some (v, rest)
  | .null, d, n, rest, hn, _ => by
    obtain ⟨m, rfl⟩ : ∃ m, n = m + 1 := ⟨n - 1, by unfold jneed at hn; omega⟩
    unfold jsonVal
    exact (jsVal_lit m _ rest).1 (jsWs_cons _ (by decide))
  | .bool true, d, n, rest, hn, _ => by
    obtain ⟨m, rfl⟩ : ∃ m, n = m + 1 := ⟨n - 1, by unfold jneed at hn; omega⟩
    unfold jsonVal
    exact (jsVal_lit m _ rest).2.1 (jsWs_cons _ (by decide))
  | .bool false, d, n, rest, hn, _ => by
    obtain ⟨m, rfl⟩ : ∃ m, n = m + 1 := ⟨n - 1, by unfold jneed at hn; omega⟩
    unfold jsonVal
    exact (jsVal_lit m _ rest).2.2.1 (jsWs_cons _ (by decide))
  | .num k, d, n, rest, hn, hr => by
    obtain ⟨m, rfl⟩ : ∃ m, n = m + 1 := ⟨n - 1, by unfold jneed at hn; omega⟩
    unfold jsonVal
    have h1 := jsNum_natStr k rest hr
    cases hs : natStr k with
    | nil => exact absurd hs (natStr_ne_nil k)
    | cons c t =>
      have hc : isDigit c = true := List.all_eq_true.mp (natStr_allDigits k) c (by rw [hs]; exact List.mem_cons_self)
      rw [hs] at h1
      rw [List.cons_append] at h1 ⊢
      have hw : isJsonWs c = false := by
        rcases digit_cases hc with rfl | rfl | rfl | rfl | rfl | rfl | rfl | rfl | rfl | rfl <;> decide
      rw [jsVal_num m _ _ c hc (jsWs_cons _ hw), h1]; rfl
  | .str s, d, n, rest, hn, _ => by
    obtain ⟨m, rfl⟩ : ∃ m, n = m + 1 := ⟨n - 1, by unfold jneed at hn; omega⟩
    unfold jsonVal jsonStr
    simp only [List.cons_append, List.append_assoc, List.nil_append]
    rw [(jsVal_lit m _ _).2.2.2 (jsWs_cons _ (by decide)), jsChars_str]; rfl
  | .arr [], d, n, rest, hn, _ => by
    obtain ⟨m, rfl⟩ : ∃ m, n = m + 1 := ⟨n - 1, by unfold jneed at hn; omega⟩
    unfold jsonVal
    rw [show (['[', ']'] ++ rest) = '[' :: ']' :: rest from rfl]
    rw [(jsVal_open m _ _).1 (jsWs_cons _ (by decide)), jsWs_cons _ (by decide)]; rfl
  | .arr (v :: l), d, n, rest, hn, hr => by
    unfold jneed at hn
    obtain ⟨m, rfl⟩ : ∃ m, n = m + 1 := ⟨n - 1, by omega⟩
    unfold jsonVal
    obtain ⟨c, t, hc, hw, hb⟩ := jsonVal_head (d + 1) v
    simp only [List.cons_append, List.append_assoc]
    rw [jsVal_arr m _ (jsonNl (d + 1) ++ (jsonVal (d + 1) v ++ (jsonElems d l ++ rest))) (t ++ (jsonElems d l ++ rest)) c (jsWs_cons _ (by decide))
      (by rw [jsWs_skip _ _ (jsonNl_ws _), hc]; exact jsWs_cons _ hw) hb]
    rw [← List.cons_append, ← hc, jsVal_json v (d + 1) m _ (by omega) (elems_noDigit d l rest)]
    simp only [Option.bind_some]
    rw [jsElems_json l d m rest (by omega)]
    rfl
  | .obj [], d, n, rest, hn, _ => by
    obtain ⟨m, rfl⟩ : ∃ m, n = m + 1 := ⟨n - 1, by unfold jneed at hn; omega⟩
    unfold jsonVal
    rw [show (['{', '}'] ++ rest) = '{' :: '}' :: rest from rfl]
    rw [(jsVal_open m _ _).2 (jsWs_cons _ (by decide)), jsWs_cons _ (by decide)]; rfl
  | .obj ((k, v) :: l), d, n, rest, hn, hr => by
    unfold jneed at hn
    obtain ⟨m, rfl⟩ : ∃ m, n = m + 2 := ⟨n - 2, by omega⟩
    have hv := jsVal_json v (d + 1) m (jsonFields d l ++ rest) (by omega) (fields_noDigit d l rest)
    have hf := jsField_json m k _ _ v hv
    unfold jsonVal
    simp only [List.cons_append, List.append_assoc, List.nil_append]
    rw [(jsVal_open _ _ _).2 (jsWs_cons _ (by decide)), jsWs_skip _ _ (jsonNl_ws _)]
    have hk : jsWs (jsonStr k ++ ':' :: ' ' :: (jsonVal (d + 1) v ++ (jsonFields d l ++ rest))) =
        '"' :: (k.flatMap jsonChar ++ ['"'] ++ ':' :: ' ' :: (jsonVal (d + 1) v ++ (jsonFields d l ++ rest))) := by
      unfold jsonStr; exact jsWs_cons _ (by decide)
    rw [hk]
    have hf' : jsField (m + 1) ('"' :: (k.flatMap jsonChar ++ ['"'] ++ ':' :: ' ' :: (jsonVal (d + 1) v ++ (jsonFields d l ++ rest)))) =
        some ((k, v), jsonFields d l ++ rest) := by
      rw [← hf]; unfold jsonStr; simp
    show (jsField (m + 1) ('"' :: (k.flatMap jsonChar ++ ['"'] ++ ':' :: ' ' :: (jsonVal (d + 1) v ++ (jsonFields d l ++ rest))))).bind
      (fun r => (jsFields (m + 1) r.2).map fun q => (JVal.obj (r.1 :: q.1), q.2)) = _
    rw [hf']
    simp only [Option.bind_some]
    rw [jsFields_json l d (m + 1) rest (by omega)]
    rfl
theorem jsElems_json : ∀ (l : List JVal) (d n : Nat) (rest : Str), jneedL l ≤ n → jsElems n (jsonElems d l ++ rest) = some (l, rest)
  | [], d, n, rest, hn => by
    obtain ⟨m, rfl⟩ : ∃ m, n = m + 1 := ⟨n - 1, by unfold jneedL at hn; omega⟩
    unfold jsonElems
    apply (jsElems_step m _ rest).1
    rw [List.append_assoc, jsWs_skip _ _ (jsonNl_ws _)]
    exact jsWs_cons _ (by decide)
  | v :: l, d, n, rest, hn => by
    unfold jneedL at hn
    obtain ⟨m, rfl⟩ : ∃ m, n = m + 1 := ⟨n - 1, by omega⟩
    unfold jsonElems
    simp only [List.cons_append, List.append_assoc]
    rw [(jsElems_step m _ _).2 (jsWs_cons _ (by decide)), jsVal_ws _ _ _ (jsonNl_ws _), jsVal_json v (d + 1) m _ (by omega) (elems_noDigit d l rest)]
    simp only [Option.bind_some]
    rw [jsElems_json l d m rest (by omega)]
    rfl
theorem jsFields_json : ∀ (l : List (Str × JVal)) (d n : Nat) (rest : Str), jneedF l ≤ n → jsFields n (jsonFields d l ++ rest) = some (l, rest)
  | [], d, n, rest, hn => by
    obtain ⟨m, rfl⟩ : ∃ m, n = m + 1 := ⟨n - 1, by unfold jneedF at hn; omega⟩
    unfold jsonFields
    apply (jsFields_step m _ rest).1
    rw [List.append_assoc, jsWs_skip _ _ (jsonNl_ws _)]
    exact jsWs_cons _ (by decide)
  | (k, v) :: l, d, n, rest, hn => by
    unfold jneedF at hn
    obtain ⟨m, rfl⟩ : ∃ m, n = m + 2 := ⟨n - 2, by omega⟩
    have hv := jsVal_json v (d + 1) m (jsonFields d l ++ rest) (by omega) (fields_noDigit d l rest)
    have hf := jsField_json m k _ _ v hv
    unfold jsonFields
    simp only [List.cons_append, List.append_assoc, List.nil_append] at hf ⊢
    rw [(jsFields_step (m + 1) _ _).2 (jsWs_cons _ (by decide)), jsField_ws _ _ _ (jsonNl_ws _), hf]
    simp only [Option.bind_some]
    rw [jsFields_json l d (m + 1) rest (by omega)]
    rfl
end

mutual
theorem jneed_le : ∀ (v : JVal) (d : Nat), jneed v ≤ 3 * (jsonVal d v).length
  | .null, d => by unfold jneed jsonVal; simp
  | .bool true, d => by unfold jneed jsonVal; simp
  | .bool false, d => by unfold jneed jsonVal; simp
  | .num k, d => by unfold jneed jsonVal; have := natStr_length_pos k; omega
  | .str s, d => by unfold jneed jsonVal jsonStr; simp; omega
  | .arr [], d => by unfold jneed jsonVal; simp
  | .arr (v :: l), d => by
    have h1 := jneed_le v (d + 1)
    have h2 := jneedL_le l d
    unfold jneed jsonVal
    simp only [List.length_cons, List.length_append]; omega
  | .obj [], d => by unfold jneed jsonVal; simp
  | .obj ((k, v) :: l), d => by
    have h1 := jneed_le v (d + 1)
    have h2 := jneedF_le l d
    unfold jneed jsonVal
    simp only [List.length_cons, List.length_append]; omega
theorem jneedL_le : ∀ (l : List JVal) (d : Nat), jneedL l ≤ 3 * (jsonElems d l).length
  | [], d => by unfold jneedL jsonElems; simp; omega
  | v :: l, d => by
    have h1 := jneed_le v (d + 1)
    have h2 := jneedL_le l d
    unfold jneedL jsonElems
    simp only [List.length_cons, List.length_append]; omega
theorem jneedF_le : ∀ (l : List (Str × JVal)) (d : Nat), jneedF l ≤ 3 * (jsonFields d l).length
  | [], d => by unfold jneedF jsonFields; simp; omega
  | (k, v) :: l, d => by
    have h1 := jneed_le v (d + 1)
    have h2 := jneedF_le l d
    unfold jneedF jsonFields
    simp only [List.length_cons, List.length_append]; omega
end

/-- What Go encodes, JavaScript parses back. -/
theorem jsonParse_encode (v : JVal) : jsonParse (jsonEncode v) = some v := by
  unfold jsonParse jsonEncode
  rw [jsVal_json v 0 _ ['\n'] (by have := jneed_le v 0; simp only [List.length_append]; omega) (by unfold NoDigit; decide)]
  rfl


/-! ## The text is harmless inside a script element -/

/-- Characters that can neither open a tag or an entity nor be stripped or changed by a browser. -/
def HarmlessChar (c : Char) : Prop := c ≠ '<' ∧ c ≠ '>' ∧ c ≠ '&' ∧ (32 ≤ c.toNat ∨ c = '\n' ∨ c = '\t')

instance (c : Char) : Decidable (HarmlessChar c) := by unfold HarmlessChar; infer_instance

def Harmless (s : Str) : Prop := ∀ c ∈ s, HarmlessChar c

theorem Harmless.append {s t : Str} (h : Harmless s) (h' : Harmless t) : Harmless (s ++ t) := by
  intro c hc
  rcases List.mem_append.mp hc with hc | hc
  · exact h c hc
  · exact h' c hc

theorem Harmless.cons {c : Char} {t : Str} (h : HarmlessChar c) (h' : Harmless t) : Harmless (c :: t) := by
  intro x hx
  rcases List.mem_cons.mp hx with rfl | hx
  · exact h
  · exact h' x hx

theorem Harmless.nil : Harmless [] := by intro c hc; cases hc

theorem harmless_hex (n : Nat) (h : n < 16) : HarmlessChar (hexChar n) := by
  have : ∀ d : Fin 16, HarmlessChar (hexChar d) := by decide
  exact this ⟨n, h⟩

theorem harmless_u (n : Nat) : Harmless (uEscape n) := by
  unfold uEscape
  exact .cons (by decide) (.cons (by decide) (.cons (harmless_hex _ (by omega)) (.cons (harmless_hex _ (by omega))
    (.cons (harmless_hex _ (by omega)) (.cons (harmless_hex _ (by omega)) .nil)))))

theorem harmless_char (c : Char) : Harmless (jsonChar c) := by
  unfold jsonChar
  split
  · exact .cons (by decide) (.cons (by decide) .nil)
  split
  · exact .cons (by decide) (.cons (by decide) .nil)
  split
  · exact .cons (by decide) (.cons (by decide) .nil)
  split
  · exact .cons (by decide) (.cons (by decide) .nil)
  split
  · exact .cons (by decide) (.cons (by decide) .nil)
  split
  · exact .cons (by decide) (.cons (by decide) .nil)
  split
  · exact .cons (by decide) (.cons (by decide) .nil)
  split
  · exact harmless_u _
  · rename_i h
    simp only [not_or] at h
    exact .cons ⟨h.2.1, h.2.2.1, h.2.2.2.1, Or.inl (by omega)⟩ .nil

theorem harmless_str (s : Str) : Harmless (jsonStr s) := by
  unfold jsonStr
  refine .cons (by decide) (.append ?_ (.cons (by decide) .nil))
  induction s with
  | nil => exact .nil
  | cons c s ih => rw [List.flatMap_cons]; exact .append (harmless_char c) ih

theorem harmless_nl (d : Nat) : Harmless (jsonNl d) := by
  unfold jsonNl rep
  refine .cons (by decide) ?_
  intro c hc
  rw [List.eq_of_mem_replicate hc]; decide

theorem harmless_nat (n : Nat) : Harmless (natStr n) := by
  intro c hc
  have hc : isDigit c = true := List.all_eq_true.mp (natStr_allDigits n) c hc
  rcases digit_cases hc with rfl | rfl | rfl | rfl | rfl | rfl | rfl | rfl | rfl | rfl <;> decide

mutual
theorem harmless_val : ∀ (v : JVal) (d : Nat), Harmless (jsonVal d v)
  | .null, d => by unfold jsonVal; exact .cons (by decide) (.cons (by decide) (.cons (by decide) (.cons (by decide) .nil)))
  | .bool true, d => by unfold jsonVal; exact .cons (by decide) (.cons (by decide) (.cons (by decide) (.cons (by decide) .nil)))
  | .bool false, d => by
    unfold jsonVal; exact .cons (by decide) (.cons (by decide) (.cons (by decide) (.cons (by decide) (.cons (by decide) .nil))))
  | .num k, d => by unfold jsonVal; exact harmless_nat k
  | .str s, d => by unfold jsonVal; exact harmless_str s
  | .arr [], d => by unfold jsonVal; exact .cons (by decide) (.cons (by decide) .nil)
  | .arr (v :: l), d => by
    unfold jsonVal
    exact .cons (by decide) (.append (.append (harmless_nl _) (harmless_val v _)) (harmless_elems l d))
  | .obj [], d => by unfold jsonVal; exact .cons (by decide) (.cons (by decide) .nil)
  | .obj ((k, v) :: l), d => by
    unfold jsonVal
    exact .cons (by decide) (.append (.append (.append (.append (harmless_nl _) (harmless_str k))
      (.cons (by decide) (.cons (by decide) .nil))) (harmless_val v _)) (harmless_fields l d))
theorem harmless_elems : ∀ (l : List JVal) (d : Nat), Harmless (jsonElems d l)
  | [], d => by unfold jsonElems; exact .append (harmless_nl _) (.cons (by decide) .nil)
  | v :: l, d => by
    unfold jsonElems
    exact .cons (by decide) (.append (.append (harmless_nl _) (harmless_val v _)) (harmless_elems l d))
theorem harmless_fields : ∀ (l : List (Str × JVal)) (d : Nat), Harmless (jsonFields d l)
  | [], d => by unfold jsonFields; exact .append (harmless_nl _) (.cons (by decide) .nil)
  | (k, v) :: l, d => by
    unfold jsonFields
    exact .cons (by decide) (.append (.append (.append (.append (harmless_nl _) (harmless_str k))
      (.cons (by decide) (.cons (by decide) .nil))) (harmless_val v _)) (harmless_fields l d))
end

theorem jsonEncode_harmless (v : JVal) : Harmless (jsonEncode v) := by
  unfold jsonEncode
  exact .append (harmless_val v 0) (.cons (by decide) .nil)

end Verif
