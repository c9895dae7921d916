import Verif.Bb.AddrModel

/-!
C283: the address that a server announces is understood by clients.
C284: the socket of a server is where the address says.
-/

namespace Isar.Bb.Addr

open Py

namespace Spec

/-- a text with digits and points, like IPv4 -/
def ipv4 (h : Str) : Prop := ∀ c ∈ h, c.isDigit = true ∨ c = '.'

/-- a text with hexadecimal digits, colons, points and a zone, like IPv6 -/
def ipv6 (h : Str) : Prop := ∀ c ∈ h, c ≠ ']'

end Spec

/-! ## C283 -/

theorem toInt_dec (p : Nat) : toInt (dec p) = some p := by
  unfold toInt
  rw [if_pos ⟨dec_ne_nil p, List.all_eq_true.mpr fun c hc => dec_digits hc⟩, decVal_dec]

theorem no_prefix {s p : Str} {c : Char} (hs : s.head? ≠ some c) : startsWith s (c :: p) = false := by
  rcases s with _ | ⟨x, s⟩
  · rfl
  · have hx : x ≠ c := by simpa using hs
    unfold startsWith
    simp [List.isPrefixOf, Ne.symm hx]

theorem parse_plain {s : Str} (h1 : s.head? ≠ some 'u') (h2 : s.head? ≠ some 'w') {hp : Option (Str × Str)} (h : hostPort s = hp) :
    parse s = hp.bind fun x => (toInt x.2).map fun p => .tcp x.1 p := by
  unfold parse
  have e1 : startsWith s unixPrefix = false := no_prefix h1
  have e2 : startsWith s wsPrefix = false := no_prefix h2
  have e3 : startsWith s wssPrefix = false := no_prefix h2
  rw [e1, e2, e3, h]
  simp only [Bool.or_self, Bool.false_eq_true, if_false]
  cases hp <;> rfl

theorem bracketed_v6 {h port : Str} (hh : Spec.ipv6 h) (hp : port ≠ []) (hd : port.all Char.isDigit = true) :
    bracketed ('[' :: h ++ ']' :: ':' :: port) = some (h, port) := by
  have h1 : ∀ x ∈ h, decide (x ≠ ']') = true := fun x hx => by simpa using hh x hx
  have h2 : decide (']' ≠ ']') = false := by decide
  show bracketed ('[' :: (h ++ ']' :: ':' :: port)) = _
  have e1 := dropWhile_append_stop (p := fun x => decide (x ≠ ']')) (a := h) (b := ':' :: port) (c := ']') h1 h2
  have e2 := takeWhile_append_stop (p := fun x => decide (x ≠ ']')) (a := h) (b := ':' :: port) (c := ']') h1 h2
  rw [bracketed, e1, e2]
  simp only [hp, hd, ne_eq, not_false_eq_true, and_self, if_true]

theorem bracketed_none {s : Str} (h : s.head? ≠ some '[') : bracketed s = none := by
  unfold bracketed
  split
  · simp at h
  · rfl

/-- **C283**: clients get host and port of what a server on TCP announces, for both kinds of addresses. -/
theorem tcp_roundtrip {h : Str} (p : Nat) : (Spec.ipv4 h → parse (announceTcp false h p) = some (.tcp h p)) ∧
    (Spec.ipv6 h → parse (announceTcp true h p) = some (.tcp h p)) := by
  constructor
  · intro hh
    have hc : ':' ∉ h := fun hm => by
      rcases hh _ hm with h | h
      · revert h; decide
      · revert h; decide
    have hd : ':' ∉ dec p := fun hm => by
      have := dec_digits hm
      revert this; decide
    have hhead : ∀ c, c.isDigit = false → c ≠ '.' → c ≠ ':' → (h ++ ':' :: dec p).head? ≠ some c := by
      intro c h1 h2 h3
      rcases h with _ | ⟨x, h⟩
      · simpa using fun e => h3 e.symm
      · have := hh x (List.mem_cons_self ..)
        intro e
        have e' : x = c := by simpa using e
        rw [e', h1] at this
        rcases this with h | h
        · cases h
        · exact h2 h
    show parse (h ++ ':' :: dec p) = _
    have hq : hostPort (h ++ ':' :: dec p) = some (h, dec p) := by
      unfold hostPort
      rw [bracketed_none (hhead '[' (by decide) (by decide) (by decide)), splitOn_append, splitOn_clean _ _ hc, splitOn_clean _ _ hd]
      rfl
    rw [parse_plain (hhead 'u' (by decide) (by decide) (by decide)) (hhead 'w' (by decide) (by decide) (by decide)) hq]
    show (toInt (dec p)).map _ = _
    rw [toInt_dec]; rfl
  · intro hh
    show parse ('[' :: h ++ ']' :: ':' :: dec p) = _
    have hq : hostPort ('[' :: h ++ ']' :: ':' :: dec p) = some (h, dec p) := by
      unfold hostPort
      rw [bracketed_v6 hh (dec_ne_nil p) (List.all_eq_true.mpr fun c hc => dec_digits hc)]
    rw [parse_plain (by simp) (by simp) hq]
    show (toInt (dec p)).map _ = _
    rw [toInt_dec]; rfl

theorem cut_first {c : Char} : ∀ {a a' b b' : Str}, c ∉ a → c ∉ a' → a ++ c :: b = a' ++ c :: b' → a = a' ∧ b = b'
  | [], [], _, _, _, _, h => ⟨rfl, (List.cons.inj h).2⟩
  | [], x :: a', _, _, _, h2, h => absurd (by rw [(List.cons.inj h).1]; exact List.mem_cons_self ..) h2
  | x :: a, [], _, _, h1, _, h => absurd (by rw [← (List.cons.inj h).1]; exact List.mem_cons_self ..) h1
  | x :: a, y :: a', _, _, h1, h2, h => by
    obtain ⟨e1, e2⟩ := List.cons.inj h
    obtain ⟨e3, e4⟩ := cut_first (fun m => h1 (List.mem_cons_of_mem _ m)) (fun m => h2 (List.mem_cons_of_mem _ m)) e2
    exact ⟨by rw [e1, e3], e4⟩

theorem not_scheme {scheme h port : Str} (hs : ':' ∉ scheme) (hh : ':' ∉ h) (hp : '/' ∉ port) : startsWith (h ++ ':' :: port) (scheme ++ [':', '/', '/']) = false := by
  cases hq : startsWith (h ++ ':' :: port) (scheme ++ [':', '/', '/']) with
  | false => rfl
  | true =>
    unfold startsWith at hq
    obtain ⟨t, ht⟩ := List.isPrefixOf_iff_prefix.mp hq
    have e : h ++ ':' :: port = scheme ++ ':' :: ('/' :: '/' :: t) := by rw [← ht]; simp
    obtain ⟨_, e2⟩ := cut_first hh hs e
    exact absurd (by rw [e2]; exact List.mem_cons_self ..) hp

theorem parse_host {h port : Str} (hh : ':' ∉ h) (hp : ':' ∉ port) (hs : '/' ∉ port) (hb : h.head? ≠ some '[') :
    parse (h ++ ':' :: port) = (toInt port).map fun p => .tcp h p := by
  have hb' : (h ++ ':' :: port).head? ≠ some '[' := by
    rcases h with _ | ⟨x, h⟩
    · simp
    · simpa using hb
  have hq : hostPort (h ++ ':' :: port) = some (h, port) := by
    unfold hostPort
    rw [bracketed_none hb', splitOn_append, splitOn_clean _ _ hh, splitOn_clean _ _ hp]
    rfl
  have e1 : startsWith (h ++ ':' :: port) unixPrefix = false := not_scheme (scheme := ['u', 'n', 'i', 'x']) (by decide) hh hs
  have e2 : startsWith (h ++ ':' :: port) wsPrefix = false := not_scheme (scheme := ['w', 's']) (by decide) hh hs
  have e3 : startsWith (h ++ ':' :: port) wssPrefix = false := not_scheme (scheme := ['w', 's', 's']) (by decide) hh hs
  unfold parse
  rw [e1, e2, e3, hq]
  simp only [Bool.or_self, Bool.false_eq_true, if_false]

/-- **C283**: a host that is given by its name is understood, whatever the name, also if it is that of a scheme. -/
theorem host_name {h : Str} (p : Nat) (hh : ':' ∉ h) (hb : h.head? ≠ some '[') : parse (h ++ ':' :: dec p) = some (.tcp h p) := by
  have nd : ∀ c : Char, c.isDigit = false → c ∉ dec p := fun c hc hm => by
    rw [dec_digits hm] at hc; cases hc
  rw [parse_host hh (nd ':' (by decide)) (nd '/' (by decide)) hb, toInt_dec]
  rfl

/-- **C283**: a port that is empty, or has something other than digits, is refused. -/
theorem bad_port_refused {h port : Str} (hh : ':' ∉ h) (hp : ':' ∉ port) (hs : '/' ∉ port) (hb : h.head? ≠ some '[')
    (hbad : port = [] ∨ ∃ c ∈ port, c.isDigit = false) : parse (h ++ ':' :: port) = none := by
  rw [parse_host hh hp hs hb]
  unfold toInt
  rw [if_neg]
  · rfl
  · rintro ⟨h1, h2⟩
    rcases hbad with h | ⟨c, hc, hd⟩
    · exact h1 h
    · rw [List.all_eq_true.mp h2 c hc] at hd; cases hd

example : parse "ws:80".toList = some (.tcp "ws".toList 80) ∧ parse "localhost:".toList = none := by decide +kernel

/-- **C283**: the path of a socket is understood as it is announced, and so are addresses for websockets. -/
theorem other_roundtrip {cwd path h : Str} {v6 : Bool} {p : Nat} : parse (announceUnix cwd path) = some (.unix (abspath cwd path)) ∧
    parse (announceWs v6 h p) = some (.ws (announceWs v6 h p)) ∧
    announceWs v6 h p = ['w', 's', ':', '/', '/'] ++ announceTcp v6 h p := by
  refine ⟨?_, ?_, rfl⟩
  · unfold parse announceUnix
    rw [if_pos (by unfold startsWith; exact List.isPrefixOf_iff_prefix.mpr (List.prefix_append ..))]
    simp
  · unfold parse announceWs
    have h1 : startsWith (wsPrefix ++ announceTcp v6 h p) unixPrefix = false := no_prefix (by unfold wsPrefix; simp)
    have h2 : startsWith (wsPrefix ++ announceTcp v6 h p) wsPrefix = true := by
      unfold startsWith; exact List.isPrefixOf_iff_prefix.mpr (List.prefix_append ..)
    rw [h1, h2]
    simp

/-- **C283**: an address of IPv6 without brackets is refused, not taken for something else. -/
theorem bare_ipv6_refused {a b c : Str} (h : (a ++ ':' :: (b ++ ':' :: c)).head? ≠ some '[') (h1 : (a ++ ':' :: (b ++ ':' :: c)).head? ≠ some 'u')
    (h2 : (a ++ ':' :: (b ++ ':' :: c)).head? ≠ some 'w') : parse (a ++ ':' :: (b ++ ':' :: c)) = none := by
  refine parse_plain h1 h2 (hp := none) ?_
  unfold hostPort
  rw [bracketed_none h, splitOn_append, splitOn_append]
  have n1 : splitOn ':' a ≠ [] := splitOnGo_ne_nil ':' a []
  have n2 : splitOn ':' b ≠ [] := splitOnGo_ne_nil ':' b []
  have n3 : splitOn ':' c ≠ [] := splitOnGo_ne_nil ':' c []
  have hl : (splitOn ':' a ++ (splitOn ':' b ++ splitOn ':' c)).length ≥ 3 := by
    have := List.length_pos_iff.mpr n1
    have := List.length_pos_iff.mpr n2
    have := List.length_pos_iff.mpr n3
    simp only [List.length_append]; omega
  revert hl
  rcases splitOn ':' a ++ (splitOn ':' b ++ splitOn ':' c) with _ | ⟨x, _ | ⟨y, _ | ⟨z, t⟩⟩⟩
  · intro h; simp at h
  · intro h; simp at h
  · intro h; simp at h
  · intro _; rfl

/-- **C283**: an address without a port is refused. -/
theorem no_port_refused {s : Str} (hc : ':' ∉ s) : parse s = none := by
  have hp : ∀ p : Str, ':' ∈ p → startsWith s p = false := fun p hm => by
    cases hq : startsWith s p with
    | false => rfl
    | true =>
      unfold startsWith at hq
      exact absurd ((List.isPrefixOf_iff_prefix.mp hq).subset hm) hc
  have hb : bracketed s = none := by
    unfold bracketed
    split
    · rename_i r
      split
      · rename_i port hd
        have : ':' ∈ r := (List.dropWhile_suffix (l := r) _).subset (by rw [hd]; simp)
        exact absurd (List.mem_cons_of_mem _ this) hc
      · rfl
    · rfl
  have hq : hostPort s = none := by
    unfold hostPort
    rw [hb, splitOn_clean _ _ hc]
  unfold parse
  rw [hp _ (by decide), hp _ (by decide), hp _ (by decide), hq]
  simp

example : parse "127.0.0.1:8686".toList = some (.tcp "127.0.0.1".toList 8686) ∧ parse "[::1]:8686".toList = some (.tcp "::1".toList 8686) ∧
    parse "unix:///tmp/s".toList = some (.unix "/tmp/s".toList) ∧ parse "wss://h/x".toList = some (.ws "wss://h/x".toList) ∧
    parse "::1:8686".toList = none ∧ parse "localhost".toList = none ∧ parse "localhost:http".toList = none ∧
    parse "[::1]:".toList = none := by decide +kernel

/-! ## C284 -/

/-- **C284** in part: a socket with a directory is opened under its name in this directory. -/
theorem socket_place_partial {ds : List Str} {b : Str} (hds : ∀ c ∈ ds, Clean c) (hne : ds ≠ []) (hb : Clean b) :
    socketAt (render (ds ++ [b])) = some (render ds, b) := by
  have h1 : basename (render (ds ++ [b])) = b := basename_render hb.2.2.2
  have h2 : dirname (render (ds ++ [b])) = render ds := by
    unfold dirname
    dsimp only
    rw [headPart_render hb.2.2.2]
    have hd : dirText ds = render ds := by unfold dirText; rw [if_neg hne]
    rw [hd]
    rcases List.eq_nil_or_concat ds with h | ⟨t, x, h⟩
    · exact absurd h hne
    rw [List.concat_eq_append] at h
    subst h
    have hx := hds x (by simp)
    rw [render_snoc]
    rcases hr : x.reverse with _ | ⟨c, r⟩
    · exact absurd (List.reverse_eq_nil_iff.mp hr) hx.1
    have hc : c ≠ '/' := fun e => hx.2.2.2 (by
      have : c ∈ x.reverse := by rw [hr]; exact List.mem_cons_self ..
      rw [e] at this
      exact List.mem_reverse.mp this)
    have hxe : x = r.reverse ++ [c] := by
      have : x = (c :: r).reverse := by rw [← hr, List.reverse_reverse]
      rw [this]; simp
    rw [if_neg (by
      rw [Bool.not_eq_true, List.all_eq_false]
      exact ⟨c, by rw [hxe]; simp, by simpa using hc⟩)]
    rw [hxe]
    simp [hc]
  unfold socketAt
  rw [h1, h2, if_neg (by unfold render; simp)]

/-- A socket in the current directory, without a directory in its name, cannot be opened, although its name is right. -/
theorem plain_name_fails {s : Str} (h : '/' ∉ s) : socketAt s = none := by
  have h1 : headPart s = [] := by
    unfold headPart
    have : s.reverse.dropWhile (fun x => decide (x ≠ '/')) = [] := by
      have hall : ∀ (l : Str), '/' ∉ l → l.dropWhile (fun x => decide (x ≠ '/')) = [] := by
        intro l
        induction l with
        | nil => intro _; rfl
        | cons x l ih =>
          intro hm
          rw [List.mem_cons, not_or] at hm
          rw [List.dropWhile_cons, if_pos (by simpa using fun e => hm.1 e.symm), ih hm.2]
      exact hall _ (fun hm => h (List.mem_reverse.mp hm))
    rw [this]; rfl
  unfold socketAt dirname
  rw [h1]
  rfl

example : socketAt "/run/b/hashserve.sock".toList = some ("/run/b".toList, "hashserve.sock".toList) ∧ socketAt "hashserve.sock".toList = none ∧
    parse "unix://hashserve.sock".toList = some (.unix "hashserve.sock".toList) ∧ socketAt "./hashserve.sock".toList = some (".".toList, "hashserve.sock".toList) := by decide +kernel

end Isar.Bb.Addr
