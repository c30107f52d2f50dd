import Verif.Spec.Build
import Mathlib.Tactic.IntervalCases
import Mathlib.Tactic.NormNum

/-! # Lemmas about the model of the build -/

namespace KK.Version

/-! ### characters and hexadecimal digits -/

theorem char_ofNat_toNat (c : Char) : Char.ofNat c.toNat = c := by
  simp [Char.ofNat_toNat]

theorem char_valid (c : Char) : c.toNat < 0xd800 ∨ (0xdfff < c.toNat ∧ c.toNat < 0x110000) := by
  have := c.valid
  rcases this with h | h
  · exact .inl h
  · exact .inr h

theorem hexValue_digit {n : ℕ} (h : n < 16) : hexValue (hexDigit n) = some n := by
  interval_cases n <;> decide

theorem hex4_digits {n : ℕ} (h : n < 65536) (rest : Str) :
    hex4 (hexDigit (n / 4096 % 16) :: hexDigit (n / 256 % 16) :: hexDigit (n / 16 % 16) :: hexDigit (n % 16) :: rest) =
      some (n, rest) := by
  simp only [hex4, hexValue_digit (Nat.mod_lt _ (by norm_num : 0 < 16))]
  congr 2
  omega

theorem hex4_length {s : Str} {n : ℕ} {rest : Str} (h : hex4 s = some (n, rest)) : rest.length + 4 = s.length := by
  unfold hex4 at h
  split at h
  · split at h
    · simp only [Option.some.injEq, Prod.mk.injEq] at h
      simp [← h.2]
    · exact absurd h (by simp)
  · exact absurd h (by simp)

/-! ### literals -/

/-- Evaluation of a literal without a bound on the number of pieces. -/
inductive Ev (unit : Str → Except Fail (Option Str × Str)) : Str → Str → Str → Prop
  | done {s rest : Str} : unit s = .ok (none, rest) → Ev unit s [] rest
  | piece {s p r q rest : Str} : unit s = .ok (some p, r) → Ev unit r q rest → Ev unit s (p ++ q) rest

theorem Ev.pieces {unit : Str → Except Fail (Option Str × Str)}
    (hu : ∀ s p r, unit s = .ok (some p, r) → r.length < s.length) {s v rest : Str} (h : Ev unit s v rest) {k : ℕ}
    (hk : s.length < k) : pieces unit k s = .ok (v, rest) := by
  induction h generalizing k with
  | done h =>
    obtain ⟨k, rfl⟩ : ∃ j, k = j + 1 := ⟨k - 1, by omega⟩
    simp [Version.pieces, h]
  | piece h _ ih =>
    obtain ⟨k, rfl⟩ : ∃ j, k = j + 1 := ⟨k - 1, by omega⟩
    have := hu _ _ _ h
    simp [Version.pieces, h, ih (k := k) (by omega)]

theorem jsonU_length {s p r : Str} (h : jsonU s = .ok (some p, r)) : r.length < s.length := by
  unfold jsonU at h
  split at h
  · exact absurd h (by simp)
  · rename_i n rest hh
    have h1 := hex4_length hh
    split at h
    · split at h
      · exact absurd h (by simp)
      · rename_i m rest' hh'
        have h2 := hex4_length hh'
        split at h
        · simp only [Except.ok.injEq, Prod.mk.injEq] at h
          rw [← h.2]
          simp at h2
          omega
        · exact absurd h (by simp)
    · split at h
      · exact absurd h (by simp)
      · simp only [Except.ok.injEq, Prod.mk.injEq] at h
        rw [← h.2]; omega

theorem jsonUnit_length {s p r : Str} (h : jsonUnit s = .ok (some p, r)) : r.length < s.length := by
  cases s with
  | nil => simp [jsonUnit] at h
  | cons c s =>
    simp only [jsonUnit] at h
    split_ifs at h
    · simp at h
    · cases s with
      | nil => simp [jsonEscape] at h
      | cons d s =>
        simp only [jsonEscape] at h
        split_ifs at h
        all_goals first
          | (simp only [Except.ok.injEq, Prod.mk.injEq] at h; rw [← h.2]; simp only [List.length_cons]; omega)
          | (have := jsonU_length h; simp only [List.length_cons]; omega)
    · simp only [Except.ok.injEq, Prod.mk.injEq] at h
      simp [← h.2]

theorem of_ite {α : Type} {c : Prop} [Decidable c] {a b x : α} (h : (if c then a else b) = x) : a = x ∨ b = x := by
  split at h
  · exact .inl h
  · exact .inr h

theorem pyEscape_length {s p r : Str} (h : pyEscape s = .ok (some p, r)) : r.length < s.length := by
  cases s with
  | nil => simp [pyEscape] at h
  | cons d s =>
    have fin : ∀ {q : Str}, (Except.ok (some q, s) : Except Fail (Option Str × Str)) = .ok (some p, r) →
        r.length < (d :: s).length := by
      intro q hq
      simp only [Except.ok.injEq, Prod.mk.injEq] at hq
      rw [← hq.2]; simp only [List.length_cons]; omega
    simp only [pyEscape] at h
    rcases of_ite h with h | h; · exact fin h
    rcases of_ite h with h | h; · exact fin h
    rcases of_ite h with h | h; · exact fin h
    rcases of_ite h with h | h; · exact fin h
    rcases of_ite h with h | h; · exact fin h
    rcases of_ite h with h | h; · exact fin h
    rcases of_ite h with h | h; · exact fin h
    rcases of_ite h with h | h; · exact fin h
    rcases of_ite h with h | h; · exact fin h
    rcases of_ite h with h | h
    · cases hh : hex4 s with
      | none => simp [hh] at h
      | some nr =>
        obtain ⟨n, rest⟩ := nr
        simp only [hh] at h
        have := hex4_length hh
        rcases of_ite h with h | h
        · exact absurd h (by simp)
        · simp only [Except.ok.injEq, Prod.mk.injEq] at h
          rw [← h.2]
          simp only [List.length_cons]
          omega
    rcases of_ite h with h | h
    · exact absurd h (by simp)
    · exact fin h

theorem pyUnit_length {s p r : Str} (h : pyUnit s = .ok (some p, r)) : r.length < s.length := by
  cases s with
  | nil => simp [pyUnit] at h
  | cons c s =>
    simp only [pyUnit] at h
    split at h
    · simp at h
    · split at h
      · have := pyEscape_length h
        simp only [List.length_cons]; omega
      · simp only [Except.ok.injEq, Prod.mk.injEq] at h
        simp [← h.2]

/-! ### JSON strings -/

theorem jsonUnit_u (s : Str) : jsonUnit ('\\' :: 'u' :: s) = jsonU s := rfl

theorem jsonU_pair {n m : ℕ} (h1 : 0xd800 ≤ n) (h2 : n ≤ 0xdbff) (h3 : 0xdc00 ≤ m) (h4 : m ≤ 0xdfff) (rest : Str) :
    jsonU (hexDigit (n / 4096 % 16) :: hexDigit (n / 256 % 16) :: hexDigit (n / 16 % 16) :: hexDigit (n % 16) :: '\\' :: 'u' ::
      hexDigit (m / 4096 % 16) :: hexDigit (m / 256 % 16) :: hexDigit (m / 16 % 16) :: hexDigit (m % 16) :: rest) =
    .ok (some [Char.ofNat (0x10000 + (n - 0xd800) * 1024 + (m - 0xdc00))], rest) := by
  unfold jsonU
  rw [hex4_digits (by omega)]
  simp only [List.take_succ_cons, List.take_zero, List.drop_succ_cons, List.drop_zero]
  rw [hex4_digits (by omega), if_pos ⟨h1, h2, trivial⟩]
  simp only
  rw [if_pos ⟨h3, h4⟩]

theorem jsonUnit_bmp (c : Char) (h : c.toNat < 0x10000) (rest : Str) :
    jsonUnit (uEscape c.toNat ++ rest) = .ok (some [c], rest) := by
  have hv := char_valid c
  simp only [uEscape, List.cons_append, List.nil_append, jsonUnit_u, jsonU]
  rw [hex4_digits h]
  simp only
  rw [if_neg (by omega), if_neg (by omega), char_ofNat_toNat]

theorem jsonUnit_pair {c : Char} {n m : ℕ} (h1 : 0xd800 ≤ n) (h2 : n ≤ 0xdbff) (h3 : 0xdc00 ≤ m) (h4 : m ≤ 0xdfff)
    (e : 0x10000 + (n - 0xd800) * 1024 + (m - 0xdc00) = c.toNat) (rest : Str) :
    jsonUnit (uEscape n ++ uEscape m ++ rest) = .ok (some [c], rest) := by
  rw [uEscape, uEscape]
  simp only [List.cons_append, List.nil_append, jsonUnit_u]
  rw [jsonU_pair h1 h2 h3 h4, e, char_ofNat_toNat]

theorem jsonUnit_astral (c : Char) (h : 0x10000 ≤ c.toNat) (rest : Str) :
    jsonUnit (uEscape (0xd800 + (c.toNat - 0x10000) / 1024) ++ uEscape (0xdc00 + (c.toNat - 0x10000) % 1024) ++ rest) =
      .ok (some [c], rest) := by
  have hv := char_valid c
  refine jsonUnit_pair ?_ ?_ ?_ ?_ ?_ rest <;> omega

theorem jsonUnit_char (c : Char) (rest : Str) : jsonUnit (jsonChar c ++ rest) = .ok (some [c], rest) := by
  unfold jsonChar
  split_ifs with h1 h2 h3 h4 h5 h6 h7 h8 h9
  · subst h1; rfl
  · subst h2; rfl
  · subst h3; rfl
  · subst h4; rfl
  · subst h5; rfl
  · have : c = Char.ofNat 12 := by rw [← h6, char_ofNat_toNat]
    subst this; rfl
  · have : c = Char.ofNat 8 := by rw [← h7, char_ofNat_toNat]
    subst this; rfl
  · simp only [List.cons_append, List.nil_append, jsonUnit, if_neg h1, if_neg h2]
    rw [if_neg (by omega)]
  · exact jsonUnit_bmp c h9 rest
  · exact jsonUnit_astral c (by omega) rest

theorem jsonChar_ne_nil (c : Char) : jsonChar c ≠ [] := by
  unfold jsonChar uEscape
  split_ifs <;> simp

theorem ev_json (s rest : Str) : Ev jsonUnit (s.flatMap jsonChar ++ '"' :: rest) s rest := by
  induction s with
  | nil => exact .done (by simp [jsonUnit])
  | cons c s ih =>
    rw [List.flatMap_cons, List.append_assoc]
    exact .piece (p := [c]) (jsonUnit_char c _) ih

theorem ev_raw {s : Str} (h : ∀ c ∈ s, 32 ≤ c.toNat ∧ c ≠ '"' ∧ c ≠ '\\') (rest : Str) :
    Ev jsonUnit (s ++ '"' :: rest) s rest := by
  induction s with
  | nil => exact .done (by simp [jsonUnit])
  | cons c s ih =>
    have hc := h c (by simp)
    refine .piece (p := [c]) ?_ (ih fun d hd => h d (by simp [hd]))
    simp only [List.cons_append, jsonUnit, if_neg hc.2.1, if_neg hc.2.2]
    rw [if_neg (by omega)]

/-! ### objects -/

/-- The text of a value, with the given text of strings. -/
def valueText (enc : Str → Str) : JVal → Str
  | .null => py! "null"
  | .bool true => py! "true"
  | .bool false => py! "false"
  | .str s => '"' :: enc s ++ ['"']

/-- The text of an item. -/
def itemText (enc : Str → Str) (kv : Str × JVal) : Str :=
  py! "\n " ++ ('"' :: enc kv.1 ++ ['"']) ++ py! ": " ++ valueText enc kv.2

/-- The text of the members of an object, to the closing brace. -/
def membersText (enc : Str → Str) : Dict → Str
  | [] => py! "\n}"
  | [kv] => itemText enc kv ++ py! "\n}"
  | kv :: kv' :: kvs => itemText enc kv ++ py! "," ++ membersText enc (kv' :: kvs)

/-- The strings of a value. -/
def JVal.strings : JVal → List Str
  | .str s => [s]
  | _ => []

theorem scanString_enc {enc : Str → Str} {s : Str} (h : ∀ rest, Ev jsonUnit (enc s ++ '"' :: rest) s rest) (rest : Str) :
    scanString (enc s ++ '"' :: rest) = .ok (s, rest) :=
  (h rest).pieces (fun _ _ _ => jsonUnit_length) (by simp)

theorem scanValue_text {enc : Str → Str} {v : JVal}
    (h : ∀ s ∈ v.strings, ∀ rest, Ev jsonUnit (enc s ++ '"' :: rest) s rest) (rest : Str) :
    scanValue (valueText enc v ++ rest) = .ok (v, rest) := by
  rcases v with _ | (_ | _) | s
  · simp [valueText, scanValue, startswith]
  · simp [valueText, scanValue, startswith]
  · simp [valueText, scanValue, startswith]
  · simp only [valueText, List.cons_append, List.append_assoc, scanValue, if_true, List.nil_append]
    rw [scanString_enc (h s (by simp [JVal.strings]))]

theorem valueText_head (enc : Str → Str) (v : JVal) (rest : Str) : skipWs (valueText enc v ++ rest) = valueText enc v ++ rest := by
  rcases v with _ | (_ | _) | s <;> simp [valueText, skipWs]

theorem scanItem_text {enc : Str → Str} {kv : Str × JVal}
    (h : ∀ s ∈ kv.1 :: kv.2.strings, ∀ rest, Ev jsonUnit (enc s ++ '"' :: rest) s rest) (rest : Str) :
    scanItem (skipWs (itemText enc kv ++ rest)) = .ok (kv, rest) := by
  have e : skipWs (itemText enc kv ++ rest) = '"' :: (enc kv.1 ++ '"' :: (py! ": " ++ (valueText enc kv.2 ++ rest))) := by
    simp [itemText, skipWs]
  rw [e]
  simp only [scanItem, if_true]
  rw [scanString_enc (h kv.1 (by simp))]
  simp only [List.cons_append, List.nil_append]
  have e2 : skipWs (':' :: ' ' :: (valueText enc kv.2 ++ rest)) = ':' :: ' ' :: (valueText enc kv.2 ++ rest) := by
    simp [skipWs]
  have e3 : skipWs (' ' :: (valueText enc kv.2 ++ rest)) = valueText enc kv.2 ++ rest := by
    rw [show skipWs (' ' :: (valueText enc kv.2 ++ rest)) = skipWs (valueText enc kv.2 ++ rest) by simp [skipWs],
      valueText_head]
  rw [e2]
  simp only [if_true]
  rw [e3, scanValue_text fun s hs => h s (by simp [hs])]

theorem scanMembers_text {enc : Str → Str} {kvs : Dict} (hne : kvs ≠ [])
    (h : ∀ kv ∈ kvs, ∀ s ∈ kv.1 :: kv.2.strings, ∀ rest, Ev jsonUnit (enc s ++ '"' :: rest) s rest) {k : ℕ}
    (hk : kvs.length ≤ k) (rest : Str) :
    scanMembers k (skipWs (membersText enc kvs ++ rest)) = .ok (kvs, rest) := by
  induction kvs generalizing k with
  | nil => exact absurd rfl hne
  | cons kv kvs ih =>
    obtain ⟨k, rfl⟩ : ∃ j, k = j + 1 := ⟨k - 1, by simp at hk; omega⟩
    have hkv := h kv (by simp)
    cases kvs with
    | nil =>
      simp only [membersText, List.append_assoc]
      simp only [scanMembers, scanItem_text hkv]
      simp [skipWs]
    | cons kv' kvs =>
      simp only [membersText, List.append_assoc]
      simp only [scanMembers, scanItem_text hkv]
      have e : skipWs (py! "," ++ (membersText enc (kv' :: kvs) ++ rest)) = ',' :: (membersText enc (kv' :: kvs) ++ rest) := by
        simp [skipWs]
      rw [e]
      simp only [if_true]
      rw [if_neg (by decide), ih (by simp) (fun kv hkv => h kv (by simp [hkv])) (by simpa using hk)]

theorem itemText_length (enc : Str → Str) (kv : Str × JVal) : 1 ≤ (itemText enc kv).length := by simp [itemText]

theorem membersText_length (enc : Str → Str) (kvs : Dict) : kvs.length ≤ (membersText enc kvs).length := by
  induction kvs with
  | nil => simp
  | cons kv kvs ih =>
    cases kvs with
    | nil => simp [membersText]
    | cons kv' kvs =>
      have := itemText_length enc kv
      simp only [membersText, List.length_append, List.length_cons] at ih ⊢
      omega

theorem foldl_insert {kvs acc : Dict} (h : ((acc ++ kvs).map Prod.fst).Nodup) : kvs.foldl insert acc = acc ++ kvs := by
  induction kvs generalizing acc with
  | nil => simp
  | cons kv kvs ih =>
    have hn : acc.any (·.1 = kv.1) = false := by
      rw [List.any_eq_false]
      intro e he heq
      simp only [decide_eq_true_eq] at heq
      rw [List.map_append, List.nodup_append] at h
      exact h.2.2 e.1 (List.mem_map_of_mem he) kv.1 (by simp) heq
    have : insert acc kv = acc ++ [kv] := by simp [insert, hn]
    rw [List.foldl_cons, this, ih (by simpa using h)]
    simp

theorem loads_text {enc : Str → Str} {kvs : Dict} (hne : kvs ≠ []) (hd : (kvs.map Prod.fst).Nodup)
    (h : ∀ kv ∈ kvs, ∀ s ∈ kv.1 :: kv.2.strings, ∀ rest, Ev jsonUnit (enc s ++ '"' :: rest) s rest) :
    loads ('{' :: membersText enc kvs ++ ['\n']) = .ok kvs ∧ loads ('\n' :: '{' :: membersText enc kvs ++ ['\n']) = .ok kvs := by
  have e : ∀ s, skipWs ('{' :: s) = '{' :: s := by intro s; simp [skipWs]
  have key : loads ('{' :: membersText enc kvs ++ ['\n']) = .ok kvs := by
    simp only [loads, List.cons_append, e, if_true]
    rw [if_neg]
    · rw [scanMembers_text hne h (by have := membersText_length enc kvs; simp; omega)]
      simp only
      rw [foldl_insert (acc := []) (by simpa using hd)]
      simp [skipWs]
    · cases kvs with
      | nil => exact absurd rfl hne
      | cons kv kvs => cases kvs <;> simp [membersText, itemText, skipWs]
  refine ⟨key, ?_⟩
  have e' : skipWs ('\n' :: '{' :: membersText enc kvs ++ ['\n']) = skipWs ('{' :: membersText enc kvs ++ ['\n']) := by
    simp [skipWs]
  rw [← key]
  unfold loads
  rw [e']

theorem intercalate_items (kvs : Dict) (hne : kvs ≠ []) :
    (py! ",").intercalate (kvs.map jsonItem) ++ py! "\n}" = membersText (fun s => s.flatMap jsonChar) kvs := by
  have hi : ∀ kv, jsonItem kv = itemText (fun s => s.flatMap jsonChar) kv := by
    rintro ⟨k, v⟩
    rcases v with _ | (_ | _) | s <;> simp [jsonItem, itemText, jsonString, jsonValue, valueText]
  induction kvs with
  | nil => exact absurd rfl hne
  | cons kv kvs ih =>
    cases kvs with
    | nil => simp [membersText, hi]
    | cons kv' kvs =>
      rw [membersText, ← ih (by simp), ← hi]
      simp [List.intercalate]

theorem toDict_keys (v : Versions) : v.toDict.map Prod.fst =
    [py! "date", py! "dirty", py! "error", py! "full-revisionid", py! "version"] := rfl

theorem toDict_sorted (v : Versions) : v.toDict.mergeSort (fun a b => decide (a.1 ≤ b.1)) = v.toDict := by
  apply List.mergeSort_of_pairwise
  have : (v.toDict.map Prod.fst).Pairwise fun a b => decide (a ≤ b) = true := by
    rw [toDict_keys]; decide
  exact (List.pairwise_map.1 this)

theorem dumps_toDict (v : Versions) : dumps v.toDict = '{' :: membersText (fun s => s.flatMap jsonChar) v.toDict := by
  unfold dumps
  rw [toDict_sorted]
  have hne : v.toDict ≠ [] := by simp [Versions.toDict]
  rw [← intercalate_items _ hne]
  split
  · rename_i h; exact absurd h hne
  · simp

end KK.Version
