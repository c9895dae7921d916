import Verif.Bb.UrlLemmas2
/-!
# Properties of URLs in the fetcher
-/

namespace Bb.Url
open Py

/-! ## Encoding and decoding -/

/-- **C93.**  The parts of a URL, written as a URL and read again, are the same. -/
theorem decode_encode (u : Decoded) (h : RemoteOk u ∨ LocalOk u) :
    ∃ s, encodeurl u = .ok s ∧ decodeurl s = .ok u := by
  rcases h with h | h
  · exact decode_encode_remote u h
  · exact decode_encode_local u h

/-- **C93.**  A URL on a server that is read, written and read again has the same parts, but for runs of
slashes in the path, of which one is left.  Missing: hosts with an `@` in them (`at_in_host`) and
paths that are not in ASCII. -/
theorem encode_decode_partial (url : Str) (u : Decoded) (h : decodeurl url = .ok u)
    (ht : u.type ≠ [] ∧ lower u.type ≠ "file".toList) (hh : '@' ∉ u.host)
    (hp : ∀ c, c ∈ u.path → c.toNat < 128) :
    ∃ s path, encodeurl u = .ok s ∧ decodeurl s = .ok { u with path := path } ∧ NoDouble path ∧
      (NoDouble u.path → path = u.path) := by
  obtain ⟨d1, ⟨d2, d3⟩, d4, d5, d6, d7⟩ := decode_remote url u h ht.2
  have hok : RemoteOk { u with path := squeezeAll u.path.length u.path } :=
    ⟨⟨ht.1, d1, ht.2⟩, ⟨d2, d3, hh⟩, ⟨squeezeAll_head _ _ d4,
      squeezeAll_noDouble _ _ (Nat.le_refl _), fun c hc => hp c (squeezeAll_mem _ _ c hc)⟩, d5, d6, d7⟩
  obtain ⟨s, h1, h2⟩ := decode_encode_remote _ hok
  refine ⟨s, _, ?_, h2, squeezeAll_noDouble _ _ (Nat.le_refl _), fun hn => squeezeAll_clean _ _ hn⟩
  rw [← h1]
  unfold encodeurl
  dsimp only
  rw [squeezeAll_clean (squeezeAll u.path.length u.path).length _
    (squeezeAll_noDouble _ _ (Nat.le_refl _))]
  rfl

/-- A URL with all its parts. -/
def exUrl : Decoded :=
  { type := "https".toList, host := "example.com:8080".toList, path := "/a b/c;d@e".toList
    user := "me@home".toList, pswd := "s:e@c".toList
    parm := [("sha256sum".toList, "ab=c".toList), ("name".toList, [])] }

theorem noDouble_dec (s : Str) (h : isSub ['/', '/'] s = false) : NoDouble s := (noDouble_iff s).2 h

example : RemoteOk exUrl :=
  ⟨by decide, by decide, ⟨rfl, noDouble_dec _ (by decide), by decide⟩, by decide, by decide,
    ⟨by decide, by
      intro k v h
      rcases List.mem_cons.1 h with e | h
      · cases e; decide
      · cases List.mem_singleton.1 h; decide, by
      intro k v h
      rcases List.mem_cons.1 h with e | h
      · cases e; decide
      · cases List.mem_singleton.1 h; decide⟩⟩

example : (encodeurl exUrl).toOption = some
    "https://me@home:s:e@c@example.com:8080/a%20b/c%3Bd%40e;sha256sum=ab=c;name=".toList := by
  decide +kernel

example : LocalOk ⟨"file".toList, [], "a@b.patch".toList, [], [], []⟩ :=
  ⟨rfl, ⟨rfl, rfl, rfl⟩, ⟨by decide, noDouble_dec _ (by decide), by decide⟩,
    ⟨List.nodup_nil, fun _ _ h => (nomatch h), fun _ _ h => (nomatch h)⟩⟩

example : (decodeurl "http://h//a//b".toList).toOption.map (·.path) = some "//a//b".toList := by
  decide +kernel

/-- A host with an `@` at the end: reading, writing and reading moves it to the user. -/
theorem at_in_host :
    ((decodeurl "http://u@@".toList).toOption.map fun u => (u.user, u.host)) =
        some ("u".toList, "@".toList) ∧
      (((decodeurl "http://u@@".toList).toOption.bind fun u => (encodeurl u).toOption.bind fun s =>
        (decodeurl s).toOption).map fun u => (u.user, u.host)) = some ("u@".toList, []) := by
  decide +kernel

/-- A user that begins with a colon makes `decodeurl` fail with an exception that is not for URLs. -/
theorem colon_user : decodeurl "http://:secret@host/x".toList = .error .unbound := by rfl

/-! ## Trusted networks -/

theorem join_append (c : Char) (a b : List Str) (ha : a ≠ []) (hb : b ≠ []) :
    join [c] (a ++ b) = join [c] a ++ c :: join [c] b := by
  induction a with
  | nil => exact absurd rfl ha
  | cons x a ih =>
    cases a with
    | nil =>
      cases b with
      | nil => exact absurd rfl hb
      | cons y b =>
        show x ++ [c] ++ _ = x ++ c :: _
        rw [List.append_assoc]
        rfl
    | cons y a =>
      show x ++ [c] ++ join [c] ((y :: a) ++ b) = (x ++ [c] ++ join [c] (y :: a)) ++ _
      rw [ih (by simp)]
      simp only [List.append_assoc]

/-- Being the end of a text after a dot is being the end of the list of labels. -/
theorem endsWith_labels (n d : Str) :
    endsWith ('.' :: n) ('.' :: d) = true ↔ labels d <:+ labels n := by
  rw [endsWith_iff]
  constructor
  · rintro ⟨t, h⟩
    cases t with
    | nil =>
      cases h
      exact ⟨[], rfl⟩
    | cons c t =>
      cases h
      exact ⟨labels t, (splitOn_append '.' t d).symm⟩
  · rintro ⟨p, h⟩
    have hn := join_splitOn '.' n
    have hd := join_splitOn '.' d
    unfold labels at h
    by_cases hp : p = []
    · subst hp
      rw [List.nil_append] at h
      rw [← h, hd] at hn
      exact ⟨[], by rw [hn]; rfl⟩
    · have hne : splitOn '.' d ≠ [] := splitOnGo_ne_nil _ _ _
      rw [← h, join_append '.' p _ hp hne, hd] at hn
      exact ⟨'.' :: join ['.'] p, by rw [← hn]; rfl⟩

theorem hostMatches_iff (network entry : Str) : hostMatches network entry = true ↔ Allows entry network := by
  unfold hostMatches Allows
  dsimp only
  rw [Bool.or_eq_true, Bool.and_eq_true, decide_eq_true_iff]
  constructor
  · rintro (⟨h1, h2⟩ | h)
    · right
      obtain ⟨t, ht⟩ := startsWith_iff.1 h1
      refine ⟨t, ht, (endsWith_labels _ _).1 ?_⟩
      rw [ht] at h2
      exact h2
    · exact Or.inl h
  · rintro (h | ⟨dom, h1, h2⟩)
    · exact Or.inr h
    · left
      rw [h1]
      exact ⟨startsWith_iff.2 ⟨dom, rfl⟩, (endsWith_labels _ _).2 h2⟩

/-- **C94.**  With a list of allowed networks, a URL that has a host is trusted exactly if an entry of
the list is its host or is `*.` and a domain that its host is in.  Letters are compared without regard
to case, and the port does not matter. -/
theorem trusted_exact (hosts url : Str) (u : Decoded) (hne : hosts ≠ []) (hu : decodeurl url = .ok u)
    (hh : u.host ≠ []) :
    trustedNetwork (some hosts) url = .ok true ↔
      ∃ entry, entry ∈ splitOn ' ' hosts ∧ Allows entry (lower (u.host.takeWhile (· ≠ ':'))) := by
  unfold trustedNetwork
  dsimp only
  rw [if_neg hne, hu]
  show (if u.host = [] then (Except.ok true : Except Err Bool) else _) = _ ↔ _
  rw [if_neg hh]
  show (Except.ok _ : Except Err Bool) = _ ↔ _
  rw [Except.ok.injEq, List.any_eq_true]
  constructor
  · rintro ⟨x, h1, h2⟩
    exact ⟨x, h1, (hostMatches_iff _ _).1 h2⟩
  · rintro ⟨x, h1, h2⟩
    exact ⟨x, h1, (hostMatches_iff _ _).2 h2⟩

/-- **C94.**  Without a list, or for a URL without a host (all `file://` URLs), everything is
trusted. -/
theorem trusted_open (hosts : Option Str) (url : Str) (u : Decoded) (hu : decodeurl url = .ok u)
    (h : hosts = none ∨ hosts = some [] ∨ u.host = []) : trustedNetwork hosts url = .ok true := by
  unfold trustedNetwork
  cases hosts with
  | none => rfl
  | some x =>
    dsimp only
    by_cases hx : x = []
    · rw [if_pos hx]
    · rw [if_neg hx, hu]
      rcases h with h | h | h
      · cases h
      · cases h; exact absurd rfl hx
      · show (if u.host = [] then (Except.ok true : Except Err Bool) else _) = _
        rw [if_pos h]

/-- **C94.**  A recipe's own list replaces the general one, if it is not empty. -/
theorem own_list (pn : Str) (flag : Str → Option Str) (value : Option Str) (hp : pn ≠ []) :
    (∀ l, flag pn = some l → l ≠ [] → allowedHosts (some pn) flag value = some l) ∧
      (flag pn = none ∨ flag pn = some [] → allowedHosts (some pn) flag value = value) := by
  constructor
  · intro l h1 h2
    unfold allowedHosts
    dsimp only
    rw [if_pos ⟨hp, by rw [h1]; simpa using h2⟩, h1]
  · intro h
    unfold allowedHosts
    dsimp only
    rw [if_neg]
    rintro ⟨_, h2⟩
    rcases h with h | h <;> rw [h] at h2 <;> cases h2

example : trustedNetwork (some "*.debian.org github.com".toList) "https://Deb.Debian.org:443/x".toList =
    .ok true := by rfl
example : trustedNetwork (some "*.debian.org github.com".toList) "https://notdebian.org/x".toList =
    .ok false := by rfl
example : Allows "*.Debian.org".toList "debian.org".toList :=
  Or.inr ⟨"debian.org".toList, by decide, [], rfl⟩

theorem exists_last (c : Char) (s : Str) (h : c ∈ s) : ∃ a b, s = a ++ c :: b ∧ c ∉ b := by
  induction s with
  | nil => exact nomatch h
  | cons x s ih =>
    by_cases hs : c ∈ s
    · obtain ⟨a, b, e, hb⟩ := ih hs
      exact ⟨x :: a, b, by rw [e]; rfl, hb⟩
    · rcases List.mem_cons.1 h with rfl | h
      · exact ⟨[], s, rfl, hs⟩
      · exact absurd h hs

theorem afterLast (c : Char) (a b : Str) (hb : c ∉ b) :
    ((a ++ c :: b).reverse.takeWhile (· ≠ c)).reverse = b := by
  have : (a ++ c :: b).reverse = b.reverse ++ c :: a.reverse := by simp
  rw [this, (takeWhile_append c b.reverse (c :: a.reverse) (by simpa using hb) (Or.inr ⟨_, rfl⟩)).1]
  exact List.reverse_reverse b

theorem afterLast_none (c : Char) (b : Str) (hb : c ∉ b) :
    (b.reverse.takeWhile (· ≠ c)).reverse = b := by
  have := (takeWhile_append c b.reverse [] (by simpa using hb) (Or.inl rfl)).1
  rw [List.append_nil] at this
  rw [this]
  exact List.reverse_reverse b

theorem hostPath_host (type b t : Str) (ht : lower type ≠ "file".toList) (hb : '/' ∉ b ∧ ';' ∉ b)
    (hs : t = [] ∨ ∃ x, t = '/' :: x) :
    (hostPath type ((b ++ t).takeWhile (· ≠ ';'))).1 = b := by
  unfold hostPath
  rw [if_neg ht]
  rcases hs with rfl | ⟨x, rfl⟩
  · rw [(takeWhile_append ';' b [] hb.2 (Or.inl rfl)).1, if_neg hb.1]
  · have : (b ++ '/' :: x).takeWhile (· ≠ ';') = b ++ '/' :: x.takeWhile (· ≠ ';') := by
      have hb2 := hb.2
      clear hb
      induction b with
      | nil => rfl
      | cons c b ih =>
        simp only [List.mem_cons, not_or] at hb2
        rw [List.cons_append, List.takeWhile_cons, if_pos (by simpa using fun e => hb2.1 e.symm), ih hb2.2]
        rfl
    rw [this, if_pos (List.mem_append_right _ List.mem_cons_self)]
    exact (takeWhile_append '/' b _ hb.1 (Or.inr ⟨_, rfl⟩)).1

theorem takeWhile_eq (p q : Char → Bool) (s : Str) (h : ∀ c, c ∈ s.takeWhile p → q c = true)
    (hpq : ∀ c, q c = true → p c = true) : s.takeWhile q = s.takeWhile p := by
  induction s with
  | nil => rfl
  | cons c s ih =>
    rw [List.takeWhile_cons, List.takeWhile_cons]
    by_cases hp : p c = true
    · rw [List.takeWhile_cons, if_pos hp] at h
      rw [if_pos hp, if_pos (h c List.mem_cons_self), ih fun x hx => h x (List.mem_cons_of_mem _ hx)]
    · rw [if_neg hp, if_neg (fun e => hp (hpq c e))]

theorem decode_host (url r : Str) (u : Decoded) (h : decodeurl url = .ok u)
    (hr : afterColon (url.dropWhile (· ≠ ':')) = some r) :
    u.type = url.takeWhile (· ≠ ':') ∧
      u.host = (hostPath u.type ((splitUser r).2.takeWhile (· ≠ ';'))).1 := by
  unfold decodeurl at h
  rw [hr] at h
  dsimp only at h
  by_cases hloc : (splitUser r).2.takeWhile (· ≠ ';') = []
  · rw [if_pos hloc] at h; cases h
  rw [if_neg hloc] at h
  cases hp : parms (splitOn ';' (((splitUser r).2.dropWhile (· ≠ ';')).drop 1)) [] with
  | error e => rw [hp] at h; cases h
  | ok p =>
    rw [hp] at h
    cases hu : userInfo (splitUser r).1 with
    | error e =>
      have : (Except.error e : Except Err Decoded) = .ok u := by
        rw [← h, hu]; rfl
      cases this
    | ok up =>
      rw [hu] at h
      have h := (Except.ok.injEq _ _).mp h
      rw [← h]
      exact ⟨rfl, rfl⟩

theorem afterColon_drop (s r : Str) (h : afterColon s = some r) : s.drop 3 = r := by
  unfold afterColon at h
  split at h
  · cases h; rfl
  · cases h

/-- **C94.**  With a list of allowed networks, a trusted URL makes a client contact only hosts that the
list allows.  Missing: URLs with a `?`, a `#` or a `;` before the first `/` (`host_confused`), with an
empty user (`@` right after `://`), and with an address in brackets. -/
theorem contacted_allowed_partial (hosts url : Str) (hne : hosts ≠ [])
    (htr : trustedNetwork (some hosts) url = .ok true)
    (hf : lower (url.takeWhile (· ≠ ':')) ≠ "file".toList)
    (hc : contacted url ≠ [])
    (ha : ∀ c, c ∈ ((url.dropWhile (· ≠ ':')).drop 3).takeWhile (· ≠ '/') →
      c ≠ '?' ∧ c ≠ '#' ∧ c ≠ ';' ∧ c ≠ '[')
    (hat : ((url.dropWhile (· ≠ ':')).drop 3).head? ≠ some '@') :
    ∃ entry, entry ∈ splitOn ' ' hosts ∧ Allows entry (contacted url) := by
  -- the URL can be decoded
  cases hu : decodeurl url with
  | error e =>
    unfold trustedNetwork at htr
    dsimp only at htr
    rw [if_neg hne, hu] at htr
    cases htr
  | ok u =>
    cases hr : afterColon (url.dropWhile (· ≠ ':')) with
    | none =>
      unfold decodeurl at hu
      rw [hr] at hu
      cases hu
    | some r =>
      obtain ⟨e1, e2⟩ := decode_host url r u hu hr
      have hd := afterColon_drop _ _ hr
      unfold contacted authority at hc
      have goal : contacted url = lower (u.host.takeWhile (· ≠ ':')) := by
        unfold contacted authority
        rw [hd] at ha hat hc ⊢
        have htw : r.takeWhile (fun c => c ≠ '/' && c ≠ '?' && c ≠ '#') = r.takeWhile (· ≠ '/') := by
          refine takeWhile_eq _ _ _ ?_ ?_
          · intro c hm
            have h1 := ha c hm
            have h2 : c ≠ '/' := fun e => not_mem_takeWhile '/' r (e ▸ hm)
            simp [h1.1, h1.2.1, h2]
          · intro c h
            simp only [Bool.and_eq_true] at h
            exact h.1.1
        rw [htw] at hc ⊢
        have hsl : '/' ∉ r.takeWhile (· ≠ '/') := not_mem_takeWhile _ _
        have hse : ';' ∉ r.takeWhile (· ≠ '/') := fun hm => (ha _ hm).2.2.1 rfl
        have htail : r.dropWhile (· ≠ '/') = [] ∨ ∃ x, r.dropWhile (· ≠ '/') = '/' :: x := by
          by_cases hm : '/' ∈ r
          · exact Or.inr (dropWhile_head _ _ hm)
          · left
            have := (takeWhile_append '/' r [] hm (Or.inl rfl)).2
            rw [List.append_nil] at this
            exact this
        have hsum : r.takeWhile (· ≠ '/') ++ r.dropWhile (· ≠ '/') = r := List.takeWhile_append_dropWhile
        generalize hA : r.takeWhile (· ≠ '/') = a at *
        generalize hT : r.dropWhile (· ≠ '/') = t at *
        have htail' : t = [] ∨ ∃ c x, t = c :: x ∧ (c = '/' ∨ c = ';') := by
          rcases htail with h | ⟨x, h⟩
          · exact Or.inl h
          · exact Or.inr ⟨'/', x, h, Or.inl rfl⟩
        rw [← e1] at hf
        by_cases hm : '@' ∈ a
        · obtain ⟨x, b, rfl, hb⟩ := exists_last '@' a hm
          rw [afterLast '@' x b hb] at hc ⊢
          have hbs : '/' ∉ b ∧ ';' ∉ b := ⟨fun h => hsl (by simp [h]), fun h => hse (by simp [h])⟩
          have hxs : '/' ∉ x ∧ ';' ∉ x := ⟨fun h => hsl (by simp [h]), fun h => hse (by simp [h])⟩
          have hb0 : b ≠ [] := by
            rintro rfl
            exact hc rfl
          have hx0 : x ≠ [] := by
            rintro rfl
            rw [← hsum] at hat
            exact hat rfl
          have hla : lastAt r = some (x, b ++ t) := by
            rw [← hsum, List.append_assoc]
            refine lastAt_some x (b ++ t) hxs ⟨?_, ?_⟩ (lastAt_none b t hb htail')
            · cases b with
              | nil => exact absurd rfl hb0
              | cons c b => exact fun e => nomatch e
            · cases b with
              | nil => exact absurd rfl hb0
              | cons c b =>
                intro e
                cases e
                exact hbs.2 List.mem_cons_self
          have hsu : (splitUser r).2 = b ++ t := by
            unfold splitUser
            rw [hla]
            dsimp only
            rw [if_neg hx0]
          rw [e2, hsu, hostPath_host _ _ _ hf hbs htail]
        · rw [afterLast_none '@' a hm] at hc ⊢
          have hla : lastAt r = none := by
            rw [← hsum]
            exact lastAt_none a t hm htail'
          rw [e2, splitUser_none r hla]
          dsimp only
          rw [← hsum, hostPath_host _ _ _ hf ⟨hsl, hse⟩ htail]
      rw [goal]
      have hh : u.host ≠ [] := by
        intro e
        unfold contacted authority at goal
        rw [goal, e] at hc
        exact hc rfl
      exact (trusted_exact hosts url u hne hu hh).1 htr

/-- **C94** is not true as it stands: a URL that makes a client contact one host is trusted because of
another. -/
theorem host_confused :
    trustedNetwork (some "good.org".toList) "http://evil.org?@good.org/x".toList = .ok true ∧
      contacted "http://evil.org?@good.org/x".toList = "evil.org".toList := by
  constructor
  · rfl
  · decide +kernel

example : contacted "http://me:pw@Good.org:80/x?y@z".toList = "good.org".toList := by decide +kernel

/-! ## Mirrors -/

/-- **C95.**  The list of mirrors is the list of pairs of words; a literal `\n` separates words too, and
an odd last word is left out. -/
theorem mirrors_exact (l : List (Str × Str)) (h : ∀ e, e ∈ l → IsWord e.1 ∧ IsWord e.2)
    (hn : ∀ e, e ∈ l → '\\' ∉ e.1 ∧ '\\' ∉ e.2) :
    mirrorFromString (some (join [' '] (l.map fun e => e.1 ++ ' ' :: e.2))) = l := by
  have hd : ∀ s : Str, '\\' ∉ s → dropEscapes s = s := by
    intro s hs
    induction s with
    | nil => unfold dropEscapes; rfl
    | cons c s ih =>
      simp only [List.mem_cons, not_or] at hs
      rw [dropEscapes.eq_def]
      dsimp only
      rw [if_neg (fun e => hs.1 e.symm), ih hs.2]
  have hj : ∀ ws : List Str, (∀ w, w ∈ ws → '\\' ∉ w) → '\\' ∉ join [' '] ws := by
    intro ws
    induction ws with
    | nil => intro _ h; exact nomatch h
    | cons w ws ih =>
      intro h hm
      cases ws with
      | nil => exact h w List.mem_cons_self hm
      | cons w' ws =>
        simp only [join, List.append_assoc, List.cons_append, List.nil_append, List.mem_append,
          List.mem_cons] at hm
        rcases hm with hm | hm | hm
        · exact h w List.mem_cons_self hm
        · cases hm
        · exact ih (fun x hx => h x (List.mem_cons_of_mem _ hx)) hm
  have hw : ∀ l : List (Str × Str), (∀ e, e ∈ l → IsWord e.1 ∧ IsWord e.2) →
      pairs (words (join [' '] (l.map fun e => e.1 ++ ' ' :: e.2))) = l := by
    intro l
    induction l with
    | nil => intro _; rfl
    | cons e l ih =>
      intro h
      have he := h e List.mem_cons_self
      have ih := ih fun x hx => h x (List.mem_cons_of_mem _ hx)
      have two : words (e.1 ++ ' ' :: e.2) = [e.1, e.2] := by
        rw [words_append_ws _ _ _ (by decide), words_word he.1, words_word he.2]
        rfl
      cases l with
      | nil =>
        show pairs (words (e.1 ++ ' ' :: e.2)) = _
        rw [two]
        rfl
      | cons e' l =>
        have hjn : join [' '] ((e :: e' :: l).map fun e => e.1 ++ ' ' :: e.2) =
            (e.1 ++ ' ' :: e.2) ++ ' ' :: join [' '] ((e' :: l).map fun e => e.1 ++ ' ' :: e.2) := by
          show (e.1 ++ ' ' :: e.2) ++ [' '] ++ join [' '] _ = _
          rw [List.append_assoc]
          rfl
        rw [hjn, words_append_ws _ _ _ (by decide), two]
        show (e.1, e.2) :: pairs (words _) = _
        rw [ih]
  unfold mirrorFromString
  rw [Option.getD_some, hd _ (hj _ ?_)]
  · exact hw l h
  · intro w hm
    obtain ⟨e, he, rfl⟩ := List.mem_map.1 hm
    intro hx
    rcases List.mem_append.1 hx with hx | hx
    · exact (hn e he).1 hx
    · rcases List.mem_cons.1 hx with hx | hx
      · cases hx
      · exact (hn e he).2 hx

example : mirrorFromString (some "http://.* http://m/ \\n ftp://.* file:///m odd".toList) =
    [("http://.*".toList, "http://m/".toList), ("ftp://.*".toList, "file:///m".toList)] := by
  decide +kernel

section mirrors
variable {L : Type} [DecidableEq L]

/-- The fuel is enough: more of it changes nothing. -/
theorem addUri_fuel (r : Rules L) (orig : Str) (fuel fuel' : Nat) (cur : Str) (mirrors todo : List L)
    (acc : List Str) (h : mirrors.length < fuel) (h' : mirrors.length < fuel')
    (ht : ∀ l, l ∈ todo → l ∈ mirrors) :
    addUri r orig fuel cur mirrors todo acc = addUri r orig fuel' cur mirrors todo acc := by
  induction fuel generalizing fuel' cur mirrors todo acc with
  | zero => exact absurd h (Nat.not_lt_zero _)
  | succ n ih =>
    cases fuel' with
    | zero => exact absurd h' (Nat.not_lt_zero _)
    | succ n' =>
      induction todo generalizing acc with
      | nil => rw [addUri, addUri]
      | cons line todo iht =>
        have hl := ht line List.mem_cons_self
        have hlen := List.length_erase_of_mem hl
        have hpos : 0 < mirrors.length := List.length_pos_of_mem hl
        have hrec : ∀ (new : Str) (a : List Str),
            addUri r orig n new (mirrors.erase line) (mirrors.erase line) a =
            addUri r orig n' new (mirrors.erase line) (mirrors.erase line) a :=
          fun new a => ih n' new _ _ a (by omega) (by omega) fun l h => h
        rw [addUri, addUri]
        simp only [hrec]
        exact iht _ fun l h => ht l (List.mem_cons_of_mem _ h)

/-- The result so far stays. -/
theorem addUri_mono (r : Rules L) (orig : Str) (fuel : Nat) (cur : Str) (mirrors todo : List L)
    (acc : List Str) : ∀ x, x ∈ acc → x ∈ addUri r orig fuel cur mirrors todo acc := by
  induction fuel generalizing cur mirrors todo acc with
  | zero => intro x h; rw [addUri]; exact h
  | succ n ih =>
    induction todo generalizing acc with
    | nil => intro x h; rw [addUri]; exact h
    | cons line todo iht =>
      intro x h
      rw [addUri]
      refine iht _ x ?_
      cases r.replace cur line with
      | none => exact h
      | some new =>
        dsimp only
        by_cases hc : new ∈ acc ∨ new = orig ∨ r.trusted new = false
        · rw [if_pos hc]; exact h
        · rw [if_neg hc]
          cases r.setup new with
          | fail => exact h
          | noPath => exact ih _ _ _ _ x h
          | ok => exact ih _ _ _ _ x (List.mem_append_left _ h)

/-- What is kept of the result. -/
theorem addUri_good (r : Rules L) (orig : Str) (fuel : Nat) (cur : Str) (mirrors todo : List L)
    (acc : List Str) (ht : ∀ l, l ∈ todo → l ∈ mirrors) (hn : acc.Nodup) :
    (addUri r orig fuel cur mirrors todo acc).Nodup ∧
      ∀ x, x ∈ addUri r orig fuel cur mirrors todo acc → x ∈ acc ∨
        (x ≠ orig ∧ r.trusted x = true ∧ r.setup x = .ok ∧ Derived r cur mirrors x) := by
  induction fuel generalizing cur mirrors todo acc with
  | zero => rw [addUri]; exact ⟨hn, fun x h => Or.inl h⟩
  | succ n ih =>
    induction todo generalizing acc with
    | nil => rw [addUri]; exact ⟨hn, fun x h => Or.inl h⟩
    | cons line todo iht =>
      have hl := ht line List.mem_cons_self
      rw [addUri]
      -- one line
      have one : ∀ acc', acc' = (match r.replace cur line with
            | none => acc
            | some new =>
              if new ∈ acc ∨ new = orig ∨ r.trusted new = false then acc
              else
                match r.setup new with
                | .fail => acc
                | .noPath => addUri r orig n new (mirrors.erase line) (mirrors.erase line) acc
                | .ok => addUri r orig n new (mirrors.erase line) (mirrors.erase line) (acc ++ [new])) →
          acc'.Nodup ∧ ∀ x, x ∈ acc' → x ∈ acc ∨
            (x ≠ orig ∧ r.trusted x = true ∧ r.setup x = .ok ∧ Derived r cur mirrors x) := by
        intro acc' he
        cases hr : r.replace cur line with
        | none => rw [hr] at he; subst he; exact ⟨hn, fun x h => Or.inl h⟩
        | some new =>
          rw [hr] at he
          dsimp only at he
          by_cases hc : new ∈ acc ∨ new = orig ∨ r.trusted new = false
          · rw [if_pos hc] at he; subst he; exact ⟨hn, fun x h => Or.inl h⟩
          · rw [if_neg hc] at he
            simp only [not_or, Bool.not_eq_false] at hc
            cases hs : r.setup new with
            | fail => rw [hs] at he; subst he; exact ⟨hn, fun x h => Or.inl h⟩
            | noPath =>
              rw [hs] at he
              subst he
              obtain ⟨g1, g2⟩ := ih new (mirrors.erase line) (mirrors.erase line) acc (fun _ h => h) hn
              refine ⟨g1, fun x hx => ?_⟩
              rcases g2 x hx with h | ⟨k1, k2, k3, k4⟩
              · exact Or.inl h
              · exact Or.inr ⟨k1, k2, k3, .more hl hr k4⟩
            | ok =>
              rw [hs] at he
              subst he
              obtain ⟨g1, g2⟩ := ih new (mirrors.erase line) (mirrors.erase line) (acc ++ [new])
                (fun _ h => h) (List.nodup_append.2 ⟨hn, by simp, by
                  intro a ha b hb e
                  rw [List.mem_singleton] at hb
                  subst hb; subst e
                  exact hc.1 ha⟩)
              refine ⟨g1, fun x hx => ?_⟩
              rcases g2 x hx with h | ⟨k1, k2, k3, k4⟩
              · rcases List.mem_append.1 h with h | h
                · exact Or.inl h
                · rw [List.mem_singleton] at h
                  subst h
                  exact Or.inr ⟨hc.2.1, hc.2.2, hs, .one hl hr⟩
              · exact Or.inr ⟨k1, k2, k3, .more hl hr k4⟩
      obtain ⟨o1, o2⟩ := one _ rfl
      obtain ⟨g1, g2⟩ := iht _ (fun l h => ht l (List.mem_cons_of_mem _ h)) o1
      refine ⟨g1, fun x hx => ?_⟩
      rcases g2 x hx with h | h
      · exact o2 x h
      · exact Or.inr h

/-- **C95.**  The URLs that are tried in place of a URL are different from it and from each other, they
are trusted, and each comes from it by lines of the list of mirrors, each line used at most once. -/
theorem mirror_uris_sound (r : Rules L) (orig : Str) (mirrors : List L) :
    (buildMirrorUris r orig mirrors).Nodup ∧ ∀ x, x ∈ buildMirrorUris r orig mirrors →
      x ≠ orig ∧ r.trusted x = true ∧ r.setup x = .ok ∧ Derived r orig mirrors x := by
  obtain ⟨h1, h2⟩ := addUri_good r orig (mirrors.length + 1) orig mirrors mirrors [] (fun _ h => h)
    List.nodup_nil
  refine ⟨h1, fun x hx => ?_⟩
  rcases h2 x hx with h | h
  · exact nomatch h
  · exact h

/-- **C95.**  Every trusted URL that a line of mirrors gives for the URL is tried. -/
theorem mirror_uris_complete (r : Rules L) (orig : Str) (mirrors : List L) (line : L) (new : Str)
    (hl : line ∈ mirrors) (hr : r.replace orig line = some new) (hne : new ≠ orig)
    (ht : r.trusted new = true) (hs : r.setup new = .ok) : new ∈ buildMirrorUris r orig mirrors := by
  have key : ∀ (n : Nat) (ms todo : List L) (acc : List Str), line ∈ todo →
      new ∈ addUri r orig (n + 1) orig ms todo acc := by
    intro n ms todo
    induction todo with
    | nil => intro acc h; exact nomatch h
    | cons l todo ih =>
      intro acc h
      rw [addUri]
      by_cases hll : line = l
      · subst hll
        refine addUri_mono r orig _ _ _ _ _ new ?_
        rw [hr]
        dsimp only
        by_cases hc : new ∈ acc
        · rw [if_pos (Or.inl hc)]; exact hc
        · rw [if_neg (by
            rintro (h | h | h)
            · exact hc h
            · exact hne h
            · rw [ht] at h; cases h), hs]
          exact addUri_mono r orig _ _ _ _ _ new (by simp)
      · rcases List.mem_cons.1 h with h | h
        · exact absurd h hll
        · exact ih _ h
  exact key _ _ _ _ hl

end mirrors

/-- Two lines that lead to each other: the loop ends. -/
example : buildMirrorUris (L := Char × Char)
    ⟨fun u l => if u = [l.1] then some [l.2] else none, fun _ => true, fun _ => .ok⟩ ['a']
    [('a', 'b'), ('b', 'c'), ('c', 'a')] = [['b'], ['c']] := by
  simp [buildMirrorUris, addUri]

/-! ## Revisions -/

/-- A value that names a revision. -/
def IsRev (v : Option Str) : Prop := ∃ s, v = some s ∧ s ≠ [] ∧ s ≠ "INVALID".toList

theorem validRev_iff (v : Option Str) : validRev v = true ↔ IsRev v := by
  unfold validRev IsRev
  cases v with
  | none => exact ⟨fun h => (nomatch h), fun ⟨s, h, _⟩ => (nomatch h)⟩
  | some s =>
    simp only [Option.any_some, Bool.and_eq_true, decide_eq_true_eq]
    exact ⟨fun h => ⟨s, rfl, h⟩, fun ⟨t, e, h⟩ => by cases e; exact h⟩

theorem findRev_spec (get : Str → Option Str) (l : List Str) (v : Option Str) :
    (∃ a, a ∈ l ∧ IsRev (get a)) →
      ∃ pre a post, l = pre ++ a :: post ∧ (∀ x, x ∈ pre → ¬ IsRev (get x)) ∧ IsRev (get a) ∧
        findRev get l v = get a := by
  induction l generalizing v with
  | nil => rintro ⟨a, h, _⟩; exact nomatch h
  | cons x l ih =>
    rintro ⟨a, hm, ha⟩
    unfold findRev
    by_cases hx : validRev (get x) = true
    · rw [if_pos hx]
      exact ⟨[], x, l, rfl, fun _ h => (nomatch h), (validRev_iff _).1 hx, rfl⟩
    · rw [if_neg hx]
      have hm' : a ∈ l := by
        rcases List.mem_cons.1 hm with rfl | h
        · exact absurd ((validRev_iff _).2 ha) hx
        · exact h
      obtain ⟨pre, b, post, e, h1, h2, h3⟩ := ih (get x) ⟨a, hm', ha⟩
      refine ⟨x :: pre, b, post, by rw [e]; rfl, ?_, h2, h3⟩
      intro y hy
      rcases List.mem_cons.1 hy with rfl | hy
      · exact fun h => hx ((validRev_iff _).2 h)
      · exact h1 y hy

theorem findRev_none (get : Str → Option Str) (l : List Str) (v : Option Str) (hv : ¬ IsRev v)
    (h : ∀ a, a ∈ l → ¬ IsRev (get a)) : ¬ IsRev (findRev get l v) := by
  induction l generalizing v with
  | nil => exact hv
  | cons x l ih =>
    unfold findRev
    rw [if_neg (fun e => h x List.mem_cons_self ((validRev_iff _).1 e))]
    exact ih _ (h x List.mem_cons_self) fun a ha => h a (List.mem_cons_of_mem _ ha)

/-- The variables that can name the revision of a source, the most specific one first. -/
def revNames (name pn : Str) : List Str :=
  ["SRCREV_".toList ++ name ++ ":pn-".toList ++ pn, "SRCREV_".toList ++ name,
    "SRCREV:pn-".toList ++ pn, "SRCREV".toList]

theorem attempts_named (name pn : Str) (hn : name ≠ []) (hp : pn ≠ []) :
    attempts name (some pn) = revNames name pn := by
  unfold attempts revNames
  have : (some pn).any (fun x => decide (x ≠ [])) = true := by simpa using hp
  rw [if_pos ⟨hn, this⟩, if_pos hn, if_pos this]
  rfl

/-- **C96.**  The revision is that of the most specific variable that names one, if the URL names none
itself. -/
theorem srcrev_most_specific (get : Str → Option Str) (parm : Dict Str) (name pn : Str)
    (hn : name ≠ []) (hp : pn ≠ []) (h1 : parm.lookup "rev".toList = none)
    (h2 : parm.lookup "tag".toList = none) (pre post : List Str) (a s : Str)
    (hl : revNames name pn = pre ++ a :: post) (hpre : ∀ x, x ∈ pre → ¬ IsRev (get x))
    (ha : get a = some s) (hs : s ≠ [] ∧ s ≠ "INVALID".toList) :
    srcrev get parm name (some pn) = if s = "AUTOINC".toList then .latest else .rev s := by
  have hrev : IsRev (get a) := ⟨s, ha, hs⟩
  have hf : findRev get (attempts name (some pn)) none = some s := by
    rw [attempts_named name pn hn hp, hl]
    have : ∀ v, findRev get (pre ++ a :: post) v = some s := by
      clear hl
      induction pre with
      | nil =>
        intro v
        show (if validRev (get a) then get a else _) = _
        rw [if_pos ((validRev_iff _).2 hrev), ha]
      | cons x pre ih =>
        intro v
        show (if validRev (get x) then get x else _) = _
        rw [if_neg (fun e => hpre x List.mem_cons_self ((validRev_iff _).1 e))]
        exact ih (fun y hy => hpre y (List.mem_cons_of_mem _ hy)) _
    exact this none
  have hv : validRev (some s) = true := (validRev_iff _).2 ⟨s, rfl, hs⟩
  unfold srcrev
  rw [hf, h1, h2]
  dsimp only
  rw [hv]
  show (if false = true then _ else _) = _
  rw [if_neg (by decide)]
  by_cases hA : s = "AUTOINC".toList
  · rw [if_pos (by rw [hA]), if_pos hA]
  · rw [if_neg (fun e => hA (Option.some.inj e)), if_neg hA]
    rfl

/-- **C96.**  Without any revision, in a variable or in the URL, the recipe is refused. -/
theorem srcrev_missing (get : Str → Option Str) (parm : Dict Str) (name : Str) (pn : Option Str)
    (h1 : parm.lookup "rev".toList = none) (h2 : parm.lookup "tag".toList = none)
    (h : ∀ a, ¬ IsRev (get a)) : srcrev get parm name pn = .notSet := by
  have := findRev_none get (attempts name pn) none (fun ⟨s, e, _⟩ => nomatch e) fun a _ => h a
  have hv : validRev (findRev get (attempts name pn) none) = false := by
    rw [← Bool.not_eq_true]
    exact fun e => this ((validRev_iff _).1 e)
  unfold srcrev
  rw [h1, h2]
  dsimp only
  rw [hv]
  rfl

/-- **C96.**  A revision in the URL is used only if no variable names another: the result is never a
choice between two. -/
theorem srcrev_never_chooses (get : Str → Option Str) (parm : Dict Str) (name : Str) (pn : Option Str)
    (r s : Str) (hr : parm.lookup "rev".toList = some r ∨ parm.lookup "tag".toList = some r)
    (h : srcrev get parm name pn = .rev s) :
    s = r ∧ ∀ pre a post, attempts name pn = pre ++ a :: post → (∀ x, x ∈ pre → ¬ IsRev (get x)) →
      IsRev (get a) → get a = some r := by
  have key : ∀ v : Option Str, v = findRev get (attempts name pn) none →
      (if !validRev v then Rev.rev r else if v ≠ some r then .conflict (v.getD []) r else .rev r) = .rev s →
      s = r ∧ ∀ pre a post, attempts name pn = pre ++ a :: post → (∀ x, x ∈ pre → ¬ IsRev (get x)) →
        IsRev (get a) → get a = some r := by
    intro v hv he
    have hsr : s = r := by
      by_cases h1 : (!validRev v) = true
      · rw [if_pos h1] at he; cases he; rfl
      · rw [if_neg h1] at he
        by_cases h2 : v ≠ some r
        · rw [if_pos h2] at he; cases he
        · rw [if_neg h2] at he; cases he; rfl
    refine ⟨hsr, fun pre a post hl hpre ha => ?_⟩
    have hva : ∀ w, findRev get (pre ++ a :: post) w = get a := by
      clear hl
      induction pre with
      | nil =>
        intro w
        show (if validRev (get a) then get a else _) = _
        rw [if_pos ((validRev_iff _).2 ha)]
      | cons x pre ih =>
        intro w
        show (if validRev (get x) then get x else _) = _
        rw [if_neg (fun e => hpre x List.mem_cons_self ((validRev_iff _).1 e))]
        exact ih (fun y hy => hpre y (List.mem_cons_of_mem _ hy)) _
    rw [hl, hva] at hv
    subst hv
    rw [(validRev_iff _).2 ha] at he
    show get a = some r
    by_cases h2 : get a ≠ some r
    · rw [if_neg (by decide), if_pos h2] at he; cases he
    · exact Classical.not_not.1 h2
  unfold srcrev at h
  cases h1 : parm.lookup "rev".toList with
  | none =>
    cases h2 : parm.lookup "tag".toList with
    | none => rw [h1, h2] at hr; rcases hr with e | e <;> cases e
    | some t =>
      rw [h1, h2] at h hr
      have : t = r := by
        rcases hr with e | e
        · cases e
        · exact Option.some.inj e
      subst this
      exact key _ rfl h
  | some t =>
    cases h2 : parm.lookup "tag".toList with
    | none =>
      rw [h1, h2] at h hr
      have : t = r := by
        rcases hr with e | e
        · exact Option.some.inj e
        · cases e
      subst this
      exact key _ rfl h
    | some t' => rw [h1, h2] at h; cases h

example : srcrev (fun v => if v = "SRCREV_a".toList then some "12".toList else
    if v = "SRCREV".toList then some "34".toList else none) [] "a".toList (some "pkg".toList) =
    .rev "12".toList := by decide +kernel

example : srcrev (fun v => if v = "SRCREV".toList then some "34".toList else none)
    [("rev".toList, "56".toList)] "a".toList (some "pkg".toList) =
    .conflict "34".toList "56".toList := by decide +kernel

end Bb.Url
