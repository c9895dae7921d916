/-!
# Python strings

Strings are lists of characters.  Only what several models need is defined here; everything
is by structural recursion so that examples are checked by the kernel.
-/

namespace Py

abbrev Str := List Char

/-- ASCII whitespace in the sense of `str.split()` / `str.strip()`. -/
def isWs (c : Char) : Bool :=
  c = ' ' || c = '\t' || c = '\n' || c = '\r' || c = '\x0b' || c = '\x0c' ||
  c = '\x1c' || c = '\x1d' || c = '\x1e' || c = '\x1f'

/-- `s.startswith(p)` -/
def startsWith (s p : Str) : Bool := p.isPrefixOf s

/-- `s.endswith(p)` -/
def endsWith (s p : Str) : Bool := p.isSuffixOf s

theorem startsWith_iff {s p : Str} : startsWith s p = true ↔ ∃ t, s = p ++ t := by
  unfold startsWith
  rw [List.isPrefixOf_iff_prefix]
  exact ⟨fun ⟨t, h⟩ => ⟨t, h.symm⟩, fun ⟨t, h⟩ => ⟨t, h.symm⟩⟩

theorem endsWith_iff {s p : Str} : endsWith s p = true ↔ ∃ t, s = t ++ p := by
  unfold endsWith
  rw [List.isSuffixOf_iff_suffix]
  exact ⟨fun ⟨t, h⟩ => ⟨t, h.symm⟩, fun ⟨t, h⟩ => ⟨t, h.symm⟩⟩

/-- `p in s` for strings: the substring test. -/
def isSub (p : Str) : Str → Bool
  | [] => p.isEmpty
  | c :: s => startsWith (c :: s) p || isSub p s

theorem isSub_iff {p s : Str} : isSub p s = true ↔ ∃ a b, s = a ++ p ++ b := by
  induction s with
  | nil =>
    cases p with
    | nil => exact ⟨fun _ => ⟨[], [], rfl⟩, fun _ => rfl⟩
    | cons c p =>
      refine ⟨fun h => (by cases h), fun ⟨a, b, h⟩ => ?_⟩
      have := congrArg List.length h
      simp only [List.length_nil, List.length_append, List.length_cons] at this
      omega
  | cons c s ih =>
    unfold isSub
    rw [Bool.or_eq_true, startsWith_iff, ih]
    constructor
    · rintro (⟨t, h⟩ | ⟨a, b, h⟩)
      · exact ⟨[], t, h⟩
      · exact ⟨c :: a, b, by rw [h]; rfl⟩
    · rintro ⟨a, b, h⟩
      cases a with
      | nil => exact Or.inl ⟨b, h⟩
      | cons d a =>
        simp only [List.cons_append, List.cons.injEq] at h
        exact Or.inr ⟨a, b, h.2⟩

/-- Worker of `words`; the second argument is the word read so far. -/
def wordsGo : Str → Str → List Str
  | [], cur => if cur = [] then [] else [cur]
  | c :: cs, cur =>
    if isWs c then (if cur = [] then wordsGo cs [] else cur :: wordsGo cs [])
    else wordsGo cs (cur ++ [c])

/-- `s.split()` -/
def words (s : Str) : List Str := wordsGo s []

/-- `sep.join(l)` -/
def join (sep : Str) : List Str → Str
  | [] => []
  | [w] => w
  | w :: w' :: ws => w ++ sep ++ join sep (w' :: ws)

/-- Worker of `splitOn`. -/
def splitOnGo (c : Char) : Str → Str → List Str
  | [], cur => [cur]
  | x :: xs, cur => if x = c then cur :: splitOnGo c xs [] else splitOnGo c xs (cur ++ [x])

/-- `s.split(c)` for a one-character separator. -/
def splitOn (c : Char) (s : Str) : List Str := splitOnGo c s []

/-- A word: not empty, without whitespace. -/
def IsWord (w : Str) : Prop := w ≠ [] ∧ ∀ c ∈ w, isWs c = false

instance : DecidablePred IsWord := fun w => by unfold IsWord; exact inferInstance

/-- `s.strip()` -/
def lstrip (s : Str) : Str := s.dropWhile isWs
@[inherit_doc lstrip]
def rstrip (s : Str) : Str := (s.reverse.dropWhile isWs).reverse
@[inherit_doc lstrip]
def strip (s : Str) : Str := rstrip (lstrip s)

/-- `s.upper()` for ASCII. -/
def upper (s : Str) : Str := s.map Char.toUpper

/-- `s.rjust(n, c)` -/
def rjust (s : Str) (n : Nat) (c : Char) : Str := List.replicate (n - s.length) c ++ s

/-! ## words -/

theorem wordsGo_ws (a b : Str) (c : Char) (hc : isWs c = true) : ∀ cur,
    wordsGo (a ++ c :: b) cur = wordsGo a cur ++ wordsGo b [] := by
  induction a with
  | nil =>
    intro cur
    simp only [List.nil_append, wordsGo, hc, if_true]
    split <;> simp
  | cons x a ih =>
    intro cur
    simp only [List.cons_append, wordsGo]
    split
    · split
      · exact ih []
      · rw [ih []]; rfl
    · exact ih _

/-- Splitting at a whitespace character. -/
theorem words_append_ws (a b : Str) (c : Char) (hc : isWs c = true) :
    words (a ++ c :: b) = words a ++ words b := wordsGo_ws a b c hc []

theorem words_nil : words [] = [] := rfl

theorem words_cons_ws (s : Str) (c : Char) (hc : isWs c = true) : words (c :: s) = words s := by
  simp [words, wordsGo, hc]

theorem wordsGo_clean (w : Str) (hw : ∀ c ∈ w, isWs c = false) : ∀ cur,
    wordsGo w cur = if cur ++ w = [] then [] else [cur ++ w] := by
  induction w with
  | nil => intro cur; simp [wordsGo]
  | cons c w ih =>
    intro cur
    simp only [wordsGo, hw c (by simp), Bool.false_eq_true, if_false]
    rw [ih (fun c hc => hw c (by simp [hc]))]
    simp

theorem words_word {w : Str} (hw : IsWord w) : words w = [w] := by
  unfold words
  rw [wordsGo_clean w hw.2, if_neg (by simpa using hw.1)]
  simp

theorem wordsGo_isWord (s : Str) : ∀ cur, (∀ c ∈ cur, isWs c = false) →
    ∀ w ∈ wordsGo s cur, IsWord w := by
  induction s with
  | nil =>
    intro cur hc w hw
    simp only [wordsGo] at hw
    split at hw
    · simp at hw
    · simp at hw
      subst hw
      exact ⟨by assumption, hc⟩
  | cons c s ih =>
    intro cur hc w hw
    simp only [wordsGo] at hw
    split at hw
    · split at hw
      · exact ih [] (by simp) w hw
      · rw [List.mem_cons] at hw
        rcases hw with rfl | hw
        · exact ⟨by assumption, hc⟩
        · exact ih [] (by simp) w hw
    · next hcw =>
      refine ih (cur ++ [c]) ?_ w hw
      intro x hx
      rw [List.mem_append, List.mem_singleton] at hx
      rcases hx with hx | rfl
      · exact hc x hx
      · simpa using hcw

/-- The words of a string are words. -/
theorem words_isWord {s w : Str} (h : w ∈ words s) : IsWord w :=
  wordsGo_isWord s [] (by simp) w h

theorem words_join_sp (ws : List Str) (h : ∀ w ∈ ws, IsWord w) : words (join [' '] ws) = ws := by
  induction ws with
  | nil => rfl
  | cons w ws ih =>
    cases ws with
    | nil => exact words_word (h w (by simp))
    | cons w' ws =>
      simp only [join, List.append_assoc, List.cons_append, List.nil_append]
      rw [words_append_ws _ _ _ (by decide), words_word (h w (by simp)),
        ih (fun x hx => h x (by simp at hx ⊢; exact Or.inr hx))]
      rfl

/-! ## splitOn -/

theorem splitOnGo_ne_nil (c : Char) (s : Str) : ∀ cur, splitOnGo c s cur ≠ [] := by
  induction s with
  | nil => intro cur; simp [splitOnGo]
  | cons x s ih =>
    intro cur
    simp only [splitOnGo]
    split
    · simp
    · exact ih _

theorem splitOnGo_join (c : Char) (s : Str) : ∀ cur,
    join [c] (splitOnGo c s cur) = cur ++ s := by
  induction s with
  | nil => intro cur; simp [splitOnGo, join]
  | cons x s ih =>
    intro cur
    simp only [splitOnGo]
    split
    · next h =>
      subst h
      have h1 := ih []
      cases hs : splitOnGo x s [] with
      | nil => exact absurd hs (splitOnGo_ne_nil x s [])
      | cons w ws =>
        rw [hs] at h1
        simp only [join, h1]
        simp
    · rw [ih]; simp

/-- Joining what `split` returns gives the string back. -/
theorem join_splitOn (c : Char) (s : Str) : join [c] (splitOn c s) = s := by
  unfold splitOn
  rw [splitOnGo_join]
  rfl

theorem splitOnGo_append (c : Char) (a b : Str) : ∀ cur,
    splitOnGo c (a ++ c :: b) cur = splitOnGo c a cur ++ splitOnGo c b [] := by
  induction a with
  | nil => intro cur; simp [splitOnGo]
  | cons x a ih =>
    intro cur
    simp only [List.cons_append, splitOnGo]
    split
    · rw [ih]; rfl
    · rw [ih]

theorem splitOn_append (c : Char) (a b : Str) :
    splitOn c (a ++ c :: b) = splitOn c a ++ splitOn c b := splitOnGo_append c a b []

theorem splitOnGo_clean (c : Char) (w : Str) (hw : c ∉ w) : ∀ cur,
    splitOnGo c w cur = [cur ++ w] := by
  induction w with
  | nil => intro cur; simp [splitOnGo]
  | cons x w ih =>
    intro cur
    simp only [List.mem_cons, not_or] at hw
    simp only [splitOnGo]
    rw [if_neg (fun h => hw.1 h.symm), ih hw.2]
    simp

theorem splitOn_clean (c : Char) (w : Str) (hw : c ∉ w) : splitOn c w = [w] := by
  unfold splitOn
  rw [splitOnGo_clean c w hw]
  rfl

/-- Splitting a joined list gives the list back. -/
theorem splitOn_join (c : Char) (ws : List Str) (hne : ws ≠ []) (h : ∀ w ∈ ws, c ∉ w) :
    splitOn c (join [c] ws) = ws := by
  induction ws with
  | nil => exact absurd rfl hne
  | cons w ws ih =>
    cases ws with
    | nil => exact splitOn_clean c w (h w (by simp))
    | cons w' ws =>
      simp only [join, List.append_assoc, List.cons_append, List.nil_append]
      rw [splitOn_append, splitOn_clean c w (h w (by simp)), ih (by simp)
        (fun x hx => h x (by simp at hx ⊢; exact Or.inr hx))]
      rfl

theorem splitOnGo_pieces (c : Char) (s : Str) : ∀ cur, c ∉ cur →
    ∀ w ∈ splitOnGo c s cur, c ∉ w := by
  induction s with
  | nil => intro cur h w hw; simp [splitOnGo] at hw; subst hw; exact h
  | cons x s ih =>
    intro cur h w hw
    simp only [splitOnGo] at hw
    split at hw
    · rw [List.mem_cons] at hw
      rcases hw with rfl | hw
      · exact h
      · exact ih [] (by simp) w hw
    · next hx =>
      refine ih _ ?_ w hw
      simp only [List.mem_append, List.mem_singleton, not_or]
      exact ⟨h, fun he => hx he.symm⟩

theorem splitOn_pieces {c : Char} {s w : Str} (h : w ∈ splitOn c s) : c ∉ w :=
  splitOnGo_pieces c s [] (by simp) w h

/-! ## Decimal numbers -/

/-- The decimal digit `n % 10`. -/
def digitChar (n : Nat) : Char := Char.ofNat (48 + n % 10)

/-- Worker of `dec`. -/
def decGo : Nat → Nat → Str → Str
  | 0, _, acc => acc
  | fuel + 1, n, acc =>
    if n / 10 = 0 then digitChar n :: acc else decGo fuel (n / 10) (digitChar n :: acc)

/-- `"%d" % n` for a natural number. -/
def dec (n : Nat) : Str := decGo (n + 1) n []

/-- Value of a digit. -/
def digitVal (c : Char) : Nat := c.toNat - 48

/-- Value of a string of digits. -/
def decVal (s : Str) : Nat := s.foldl (fun a c => 10 * a + digitVal c) 0

theorem digitVal_digitChar (n : Nat) : digitVal (digitChar n) = n % 10 := by
  have h : n % 10 < 10 := Nat.mod_lt _ (by decide)
  unfold digitChar
  have : ∀ k < 10, digitVal (Char.ofNat (48 + k)) = k := by decide
  exact this _ h

theorem digitChar_isDigit (n : Nat) : (digitChar n).isDigit = true := by
  have h : n % 10 < 10 := Nat.mod_lt _ (by decide)
  unfold digitChar
  have : ∀ k < 10, (Char.ofNat (48 + k)).isDigit = true := by decide
  exact this _ h

theorem decVal_foldl (s : Str) : ∀ a, s.foldl (fun a c => 10 * a + digitVal c) a =
    a * 10 ^ s.length + decVal s := by
  unfold decVal
  induction s with
  | nil => intro a; simp
  | cons c s ih =>
    intro a
    simp only [List.foldl_cons, List.length_cons]
    rw [ih, ih (10 * 0 + digitVal c)]
    rw [Nat.pow_succ, Nat.add_mul]
    have : 10 * a * 10 ^ s.length = a * (10 ^ s.length * 10) := by
      rw [Nat.mul_comm 10 a, Nat.mul_assoc, Nat.mul_comm 10]
    rw [this, Nat.mul_zero, Nat.zero_add]
    omega

theorem decVal_cons (c : Char) (s : Str) :
    decVal (c :: s) = digitVal c * 10 ^ s.length + decVal s := by
  have := decVal_foldl s (10 * 0 + digitVal c)
  unfold decVal at this ⊢
  simp only [List.foldl_cons]
  rw [this]
  simp

theorem decGo_val : ∀ fuel n acc, n < fuel →
    decVal (decGo fuel n acc) = n * 10 ^ acc.length + decVal acc := by
  intro fuel
  induction fuel with
  | zero => intro n acc h; omega
  | succ fuel ih =>
    intro n acc h
    unfold decGo
    split
    · rw [decVal_cons, digitVal_digitChar]
      congr 2
      omega
    · rw [ih _ _ (by omega), decVal_cons, digitVal_digitChar, List.length_cons, Nat.pow_succ]
      have h1 := Nat.div_add_mod n 10
      have : n / 10 * (10 ^ acc.length * 10) + n % 10 * 10 ^ acc.length = n * 10 ^ acc.length := by
        have h2 : (10 * (n / 10) + n % 10) * 10 ^ acc.length = n * 10 ^ acc.length := by rw [h1]
        rw [← h2, Nat.add_mul]
        congr 1
        rw [Nat.mul_comm (10 ^ acc.length) 10, ← Nat.mul_assoc, Nat.mul_comm (n / 10) 10]
      omega

theorem decVal_dec (n : Nat) : decVal (dec n) = n := by
  unfold dec
  rw [decGo_val _ _ _ (by omega)]
  simp [decVal]

theorem dec_injective {m n : Nat} (h : dec m = dec n) : m = n := by
  rw [← decVal_dec m, h, decVal_dec]

theorem decGo_digits : ∀ fuel n acc, (∀ c ∈ acc, c.isDigit = true) →
    ∀ c ∈ decGo fuel n acc, c.isDigit = true := by
  intro fuel
  induction fuel with
  | zero => intro n acc h; exact h
  | succ fuel ih =>
    intro n acc h
    have h' : ∀ c ∈ digitChar n :: acc, c.isDigit = true := by
      intro c hc
      rw [List.mem_cons] at hc
      rcases hc with rfl | hc
      · exact digitChar_isDigit n
      · exact h c hc
    unfold decGo
    split
    · exact h'
    · exact ih _ _ h'

theorem dec_digits {n : Nat} {c : Char} (h : c ∈ dec n) : c.isDigit = true :=
  decGo_digits _ _ _ (by simp) c h

theorem decGo_ne_nil : ∀ fuel n acc, 0 < fuel ∨ acc ≠ [] → decGo fuel n acc ≠ [] := by
  intro fuel
  induction fuel with
  | zero => intro n acc h; simpa [decGo] using h
  | succ fuel ih =>
    intro n acc _
    unfold decGo
    split
    · simp
    · exact ih _ _ (Or.inr (by simp))

theorem dec_ne_nil (n : Nat) : dec n ≠ [] := decGo_ne_nil _ _ _ (Or.inl (by omega))

example : dec 0 = "0".toList ∧ dec 1205 = "1205".toList := by decide

example : words "  a bc\t\nd ".toList = ["a".toList, "bc".toList, "d".toList] := by decide

example : splitOn ',' "a,,b".toList = ["a".toList, [], "b".toList] := by decide

end Py
