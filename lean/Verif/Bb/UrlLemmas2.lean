import Verif.Bb.UrlLemmas
/-!
# Lemmas about URLs: what `decodeurl` makes of the parts
-/

namespace Bb.Url
open Py

/-- `decodeurl` of a text that is put together from its parts. -/
theorem decode_parts (type loc : Str) (ui : Option Str) (p : Dict Str) (r : Str)
    (ht : ':' ∉ type) (hl : ';' ∉ loc) (hne : loc ≠ []) (hp : ParmOk p)
    (hs : splitUser r = (ui, loc ++ showParms p)) (up : Str × Str) (hu : userInfo ui = .ok up) :
    decodeurl (type ++ "://".toList ++ r) =
      .ok { type := type, host := (hostPath type loc).1, path := unquote (hostPath type loc).2
            user := up.1, pswd := up.2, parm := p } := by
  have h1 := takeWhile_append ':' type ("://".toList ++ r) ht (Or.inr ⟨'/' :: '/' :: r, rfl⟩)
  have h2 := takeWhile_append ';' loc (showParms p) hl (showParms_shape p)
  unfold decodeurl
  rw [List.append_assoc, h1.1, h1.2]
  have ha : afterColon ("://".toList ++ r) = some r := rfl
  rw [ha]
  dsimp only
  rw [hs]
  dsimp only
  rw [h2.1, h2.2, if_neg hne, parms_shown p hp, hu]
  rfl

theorem userInfo_shown (user pswd : Str) (h : ':' ∉ user) (hn : user ≠ []) :
    userInfo (some (user ++ (if pswd ≠ [] then ':' :: pswd else []))) = .ok (user, pswd) := by
  have hh : ∀ t : Str, (user ++ t).head? ≠ some ':' := by
    intro t e
    cases user with
    | nil => exact hn rfl
    | cons c u =>
      cases e
      exact h List.mem_cons_self
  unfold userInfo
  dsimp only
  rw [if_neg (hh _)]
  by_cases hp : pswd = []
  · rw [if_neg (not_not_intro hp), List.append_nil]
    have := takeWhile_append ':' user [] h (Or.inl rfl)
    rw [List.append_nil] at this
    rw [this.1, this.2, hp]
    rfl
  · rw [if_pos hp]
    have := takeWhile_append ':' user (':' :: pswd) h (Or.inr ⟨_, rfl⟩)
    rw [this.1, this.2]
    rfl

theorem splitUser_none (s : Str) (h : lastAt s = none) : splitUser s = (none, s) := by
  unfold splitUser
  rw [h]

theorem hostPath_remote (type host q : Str) (ht : lower type ≠ "file".toList) (hh : '/' ∉ host)
    (hq : ∃ t, q = '/' :: t) : hostPath type (host ++ q) = (host, q) := by
  obtain ⟨t, rfl⟩ := hq
  have := takeWhile_append '/' host ('/' :: t) hh (Or.inr ⟨t, rfl⟩)
  unfold hostPath
  rw [if_neg ht, if_pos (List.mem_append_right _ List.mem_cons_self), this.1, this.2]

/-- Encoding and decoding a URL on a server. -/
theorem decode_encode_remote (u : Decoded) (h : RemoteOk u) :
    ∃ s, encodeurl u = .ok s ∧ decodeurl s = .ok u := by
  obtain ⟨⟨t1, t2, t3⟩, ⟨h1, h2, h3⟩, ⟨p1, p2, p3⟩, ⟨u1, u2, u3⟩, ⟨w1, w2, w3⟩, hp⟩ := h
  have t4 : u.type ≠ "file".toList := by
    intro e
    rw [e] at t3
    exact t3 (by decide)
  have hq := quote_slash u.path p1
  have hqc := quote_chars u.path p3
  refine ⟨_, by unfold encodeurl; rw [if_neg t1], ?_⟩
  rw [squeezeAll_clean _ _ p2, if_pos t4]
  -- what comes after the user
  have hloc : ';' ∉ u.host ++ quote u.path := by
    intro hm
    rcases List.mem_append.1 hm with hm | hm
    · exact h2 hm
    · exact (hqc _ hm).2 rfl
  have hne : u.host ++ quote u.path ≠ [] := by
    obtain ⟨t, ht⟩ := hq
    rw [ht]
    cases u.host <;> exact fun e => nomatch e
  have hnone : lastAt ((u.host ++ quote u.path) ++ showParms u.parm) = none := by
    obtain ⟨t, ht⟩ := hq
    rw [ht, List.append_assoc]
    exact lastAt_none _ _ h3 (Or.inr ⟨'/', t ++ showParms u.parm, rfl, Or.inl rfl⟩)
  have fin : ∀ (ui : Option Str) (r : Str),
      splitUser r = (ui, (u.host ++ quote u.path) ++ showParms u.parm) →
      userInfo ui = .ok (u.user, u.pswd) → decodeurl (u.type ++ "://".toList ++ r) = .ok u := by
    intro ui r hs hu
    rw [decode_parts u.type (u.host ++ quote u.path) ui u.parm r t2 hloc hne hp hs _ hu,
      hostPath_remote _ _ _ t3 h1 hq, unquote_quote _ p3]
  by_cases hu : u.user = []
  · have hw := w3 hu
    have : showUser u = [] := by
      unfold showUser
      rw [if_neg (fun e => e.1 hu)]
    rw [this]
    simp only [List.append_assoc, List.nil_append]
    have := fin none ((u.host ++ quote u.path) ++ showParms u.parm) (splitUser_none _ hnone)
      (by rw [hu, hw]; rfl)
    simp only [List.append_assoc] at this
    exact this
  · have : showUser u = (u.user ++ (if u.pswd ≠ [] then ':' :: u.pswd else [])) ++ ['@'] := by
      unfold showUser
      rw [if_pos ⟨hu, t4⟩]
    rw [this]
    have hui : '/' ∉ (u.user ++ (if u.pswd ≠ [] then ':' :: u.pswd else [])) ∧
        ';' ∉ (u.user ++ (if u.pswd ≠ [] then ':' :: u.pswd else [])) := by
      constructor
      · intro hm
        rcases List.mem_append.1 hm with hm | hm
        · exact u2 hm
        · by_cases hw : u.pswd = []
          · rw [if_neg (not_not_intro hw)] at hm; exact nomatch hm
          · rw [if_pos hw] at hm
            rcases List.mem_cons.1 hm with hm | hm
            · cases hm
            · exact w1 hm
      · intro hm
        rcases List.mem_append.1 hm with hm | hm
        · exact u3 hm
        · by_cases hw : u.pswd = []
          · rw [if_neg (not_not_intro hw)] at hm; exact nomatch hm
          · rw [if_pos hw] at hm
            rcases List.mem_cons.1 hm with hm | hm
            · cases hm
            · exact w2 hm
    have hsome := lastAt_some (u.user ++ (if u.pswd ≠ [] then ':' :: u.pswd else []))
      ((u.host ++ quote u.path) ++ showParms u.parm) hui ?_ hnone
    · have hs : splitUser ((u.user ++ (if u.pswd ≠ [] then ':' :: u.pswd else [])) ++ '@' ::
          ((u.host ++ quote u.path) ++ showParms u.parm)) =
          (some (u.user ++ (if u.pswd ≠ [] then ':' :: u.pswd else [])),
            (u.host ++ quote u.path) ++ showParms u.parm) := by
        unfold splitUser
        rw [hsome]
        dsimp only
        rw [if_neg (by
          intro e
          exact hu (List.append_eq_nil_iff.1 e).1)]
      have := fin _ _ hs (userInfo_shown u.user u.pswd u1 hu)
      simp only [List.append_assoc, List.cons_append, List.nil_append] at this ⊢
      exact this
    · obtain ⟨t, ht⟩ := hq
      rw [ht]
      refine ⟨?_, ?_⟩
      · cases u.host <;> exact fun e => nomatch e
      · cases hh : u.host with
        | nil => exact fun e => nomatch e
        | cons c r =>
          intro e
          cases e
          rw [hh] at h2
          exact h2 List.mem_cons_self

/-- Encoding and decoding a `file://` URL. -/
theorem decode_encode_local (u : Decoded) (h : LocalOk u) :
    ∃ s, encodeurl u = .ok s ∧ decodeurl s = .ok u := by
  obtain ⟨ht, ⟨h1, h2, h3⟩, ⟨p1, p2, p3⟩, hp⟩ := h
  have hqc := quote_chars u.path p3
  refine ⟨_, by unfold encodeurl; rw [if_neg (by rw [ht]; decide)], ?_⟩
  have hsu : showUser u = [] := by
    unfold showUser
    rw [if_neg (fun e => e.1 h2)]
  rw [squeezeAll_clean _ _ p2, if_neg (not_not_intro ht), hsu]
  simp only [List.append_nil]
  have hloc : ';' ∉ quote u.path := fun hm => (hqc _ hm).2 rfl
  have hne : quote u.path ≠ [] := fun e => p1 (quote_nil _ e)
  have hnone : lastAt (quote u.path ++ showParms u.parm) = none := by
    refine lastAt_none _ _ (fun hm => (hqc _ hm).1 rfl) ?_
    rcases showParms_shape u.parm with e | ⟨t, e⟩
    · exact Or.inl e
    · exact Or.inr ⟨';', t, e, Or.inr rfl⟩
  have := decode_parts u.type (quote u.path) none u.parm _ (by rw [ht]; decide) hloc hne hp
    (splitUser_none _ hnone) ([], []) rfl
  simp only [List.append_assoc] at this ⊢
  rw [this]
  have hhp : hostPath u.type (quote u.path) = ([], quote u.path) := by
    unfold hostPath
    rw [if_pos (by rw [ht]; decide)]
  rw [hhp, unquote_quote _ p3]
  cases u
  dsimp only at h1 h2 h3
  subst h1 h2 h3
  rfl

/-! ## What `decodeurl` gives -/

theorem lastAt_spec (s u l : Str) (h : lastAt s = some (u, l)) :
    s = u ++ '@' :: l ∧ '/' ∉ u ∧ ';' ∉ u ∧ lastAt l = none ∧ l ≠ [] ∧ l.head? ≠ some ';' := by
  induction s generalizing u with
  | nil => cases h
  | cons c s ih =>
    rw [lastAt] at h
    by_cases hc : c = '/' ∨ c = ';'
    · rw [if_pos hc] at h; cases h
    · rw [if_neg hc] at h
      cases hl : lastAt s with
      | none =>
        rw [hl] at h
        dsimp only at h
        by_cases hx : c = '@' ∧ s ≠ [] ∧ s.head? ≠ some ';'
        · rw [if_pos hx] at h
          cases h
          exact ⟨by rw [hx.1]; rfl, by simp, by simp, hl, hx.2⟩
        · rw [if_neg hx] at h; cases h
      | some x =>
        obtain ⟨u', l'⟩ := x
        rw [hl] at h
        cases h
        obtain ⟨e, h1, h2, h3⟩ := ih u' hl
        refine ⟨by rw [e]; rfl, ?_, ?_, h3⟩
        · intro hm
          rcases List.mem_cons.1 hm with hm | hm
          · exact hc (Or.inl hm.symm)
          · exact h1 hm
        · intro hm
          rcases List.mem_cons.1 hm with hm | hm
          · exact hc (Or.inr hm.symm)
          · exact h2 hm

theorem not_mem_takeWhile (c : Char) (s : Str) : c ∉ s.takeWhile (· ≠ c) := by
  induction s with
  | nil => simp
  | cons x s ih =>
    rw [List.takeWhile_cons]
    by_cases hx : x = c
    · rw [if_neg (by simpa using hx)]; simp
    · rw [if_pos (by simpa using hx)]
      simp only [List.mem_cons, not_or]
      exact ⟨fun e => hx e.symm, ih⟩

theorem mem_of_takeWhile {p : Char → Bool} {s : Str} {c : Char} (h : c ∈ s.takeWhile p) : c ∈ s :=
  (List.takeWhile_sublist p).subset h

theorem mem_of_dropWhile {p : Char → Bool} {s : Str} {c : Char} (h : c ∈ s.dropWhile p) : c ∈ s :=
  (List.dropWhile_sublist p).subset h

theorem dropWhile_head (c : Char) (s : Str) (h : c ∈ s) : ∃ t, s.dropWhile (· ≠ c) = c :: t := by
  induction s with
  | nil => exact nomatch h
  | cons x s ih =>
    rw [List.dropWhile_cons]
    by_cases hx : x = c
    · rw [if_neg (by simpa using hx), hx]; exact ⟨s, rfl⟩
    · rw [if_pos (by simpa using hx)]
      rcases List.mem_cons.1 h with e | h
      · exact absurd e.symm hx
      · exact ih h

theorem keys_set (d : Dict Str) (k v : Str) (h : (d.map Prod.fst).Nodup) :
    ((Dict.set d k v).map Prod.fst).Nodup := by
  unfold Dict.set
  by_cases hk : (d.lookup k).isSome
  · rw [if_pos hk]
    have : (d.map fun e => if e.1 = k then (k, v) else e).map Prod.fst = d.map Prod.fst := by
      rw [List.map_map]
      refine List.map_congr_left fun e _ => ?_
      show Prod.fst (if e.1 = k then (k, v) else e) = e.1
      by_cases he : e.1 = k
      · rw [if_pos he]; exact he.symm
      · rw [if_neg he]
    rw [this]
    exact h
  · rw [if_neg hk, List.map_append]
    refine List.nodup_append.2 ⟨h, by simp, ?_⟩
    intro a ha b hb e
    simp only [List.map_cons, List.map_nil, List.mem_singleton] at hb
    subst hb
    subst e
    obtain ⟨x, hx, hxa⟩ := List.mem_map.1 ha
    refine hk ?_
    obtain ⟨y, z⟩ := x
    dsimp only at hxa
    subst hxa
    cases hl : d.lookup y with
    | some _ => rfl
    | none =>
      have := List.lookup_eq_none_iff.1 hl (y, z) hx
      simp at this

theorem mem_set (d : Dict Str) (k v : Str) (e : Str × Str) (h : e ∈ Dict.set d k v) :
    e = (k, v) ∨ e ∈ d := by
  unfold Dict.set at h
  by_cases hk : (d.lookup k).isSome
  · rw [if_pos hk] at h
    obtain ⟨x, hx, rfl⟩ := List.mem_map.1 h
    by_cases he : x.1 = k
    · rw [if_pos he]; exact Or.inl rfl
    · rw [if_neg he]; exact Or.inr hx
  · rw [if_neg hk] at h
    rcases List.mem_append.1 h with h | h
    · exact Or.inr h
    · exact Or.inl (List.mem_singleton.1 h)

theorem parms_ok (l : List Str) (d p : Dict Str) (hl : ∀ w, w ∈ l → ';' ∉ w) (hd : ParmOk d)
    (h : parms l d = .ok p) : ParmOk p := by
  induction l generalizing d with
  | nil => cases h; exact hd
  | cons s l ih =>
    have ih := ih (hl := fun w hw => hl w (List.mem_cons_of_mem _ hw))
    unfold parms at h
    by_cases hs : s = []
    · rw [if_pos hs] at h; exact ih d hd h
    · rw [if_neg hs] at h
      by_cases he : '=' ∉ s
      · rw [if_pos he] at h; cases h
      · rw [if_neg he] at h
        refine ih _ ?_ h
        have hsemi := hl s List.mem_cons_self
        refine ⟨keys_set _ _ _ hd.keys, fun a b hm => ?_, fun a b hm => ?_⟩
        · rcases mem_set _ _ _ _ hm with e | hm
          · cases e
            exact ⟨not_mem_takeWhile _ _, fun hm => hsemi (mem_of_takeWhile hm)⟩
          · exact hd.key a b hm
        · rcases mem_set _ _ _ _ hm with e | hm
          · cases e
            exact fun hm => hsemi (mem_of_dropWhile (List.mem_of_mem_drop hm))
          · exact hd.value a b hm

/-- What `decodeurl` gives for a URL on a server. -/
theorem decode_remote (url : Str) (u : Decoded) (h : decodeurl url = .ok u)
    (ht : lower u.type ≠ "file".toList) :
    ':' ∉ u.type ∧ ('/' ∉ u.host ∧ ';' ∉ u.host) ∧ u.path.head? = some '/' ∧
      (':' ∉ u.user ∧ '/' ∉ u.user ∧ ';' ∉ u.user) ∧
      ('/' ∉ u.pswd ∧ ';' ∉ u.pswd ∧ (u.user = [] → u.pswd = [])) ∧ ParmOk u.parm := by
  unfold decodeurl at h
  cases ha : afterColon (url.dropWhile (· ≠ ':')) with
  | none => rw [ha] at h; cases h
  | some r =>
    rw [ha] at h
    dsimp only at h
    by_cases hloc : (splitUser r).2.takeWhile (· ≠ ';') = []
    · rw [if_pos hloc] at h; cases h
    rw [if_neg hloc] at h
    cases hp : parms (splitOn ';' (((splitUser r).2.dropWhile (· ≠ ';')).drop 1)) [] with
    | error e => rw [hp] at h; cases h
    | ok p =>
      rw [hp] at h
      cases hu : userInfo (splitUser r).1 with
      | error e =>
        have : (Except.error e : Except Err Decoded) = .ok u := by
          rw [← h, hu]; rfl
        cases this
      | ok up =>
        rw [hu] at h
        have h := (Except.ok.injEq _ _).mp h
        have e1 : u.type = url.takeWhile (· ≠ ':') := by rw [← h]
        have e2 : u.host = (hostPath (url.takeWhile (· ≠ ':')) ((splitUser r).2.takeWhile (· ≠ ';'))).1 := by
          rw [← h]
        have e3 : u.path = unquote (hostPath (url.takeWhile (· ≠ ':'))
            ((splitUser r).2.takeWhile (· ≠ ';'))).2 := by rw [← h]
        have e4 : u.user = up.1 := by rw [← h]
        have e5 : u.pswd = up.2 := by rw [← h]
        have e6 : u.parm = p := by rw [← h]
        have hsemi : ';' ∉ (splitUser r).2.takeWhile (· ≠ ';') := not_mem_takeWhile _ _
        have hsplit : (splitUser r).1 = none ∨
            ∃ x, (splitUser r).1 = some x ∧ x ≠ [] ∧ '/' ∉ x ∧ ';' ∉ x := by
          unfold splitUser
          cases hl : lastAt r with
          | none => exact Or.inl rfl
          | some x =>
            obtain ⟨a, b⟩ := x
            obtain ⟨_, k1, k2, _⟩ := lastAt_spec r a b hl
            dsimp only
            by_cases hx : a = []
            · rw [if_pos hx]; exact Or.inl rfl
            · rw [if_neg hx]; exact Or.inr ⟨a, rfl, hx, k1, k2⟩
        rw [e1, e2, e3, e4, e5, e6]
        rw [e1] at ht
        have hhp : '/' ∉ (hostPath (url.takeWhile (· ≠ ':')) ((splitUser r).2.takeWhile (· ≠ ';'))).1 ∧
            ';' ∉ (hostPath (url.takeWhile (· ≠ ':')) ((splitUser r).2.takeWhile (· ≠ ';'))).1 ∧
            ∃ t, (hostPath (url.takeWhile (· ≠ ':')) ((splitUser r).2.takeWhile (· ≠ ';'))).2 = '/' :: t := by
          unfold hostPath
          rw [if_neg ht]
          by_cases hm : '/' ∈ (splitUser r).2.takeWhile (· ≠ ';')
          · rw [if_pos hm]
            exact ⟨not_mem_takeWhile _ _, fun hx => hsemi (mem_of_takeWhile hx), dropWhile_head _ _ hm⟩
          · rw [if_neg hm]
            exact ⟨hm, hsemi, [], rfl⟩
        refine ⟨not_mem_takeWhile _ _, ⟨hhp.1, hhp.2.1⟩, ?_, ?_, ?_, ?_⟩
        · obtain ⟨t, htt⟩ := hhp.2.2
          rw [htt, unquote.eq_def]
          dsimp only
          rw [if_neg (by decide)]
          rfl
        · rcases hsplit with hx | ⟨x, hx, hx1, hx2, hx3⟩
          · rw [hx] at hu
            cases hu
            exact ⟨by simp, by simp, by simp⟩
          · rw [hx] at hu
            unfold userInfo at hu
            dsimp only at hu
            by_cases hc : x.head? = some ':'
            · rw [if_pos hc] at hu; cases hu
            · rw [if_neg hc] at hu
              cases hu
              exact ⟨not_mem_takeWhile _ _, fun hm => hx2 (mem_of_takeWhile hm),
                fun hm => hx3 (mem_of_takeWhile hm)⟩
        · rcases hsplit with hx | ⟨x, hx, hx1, hx2, hx3⟩
          · rw [hx] at hu
            cases hu
            exact ⟨by simp, by simp, fun _ => rfl⟩
          · rw [hx] at hu
            unfold userInfo at hu
            dsimp only at hu
            by_cases hc : x.head? = some ':'
            · rw [if_pos hc] at hu; cases hu
            · rw [if_neg hc] at hu
              cases hu
              refine ⟨fun hm => hx2 (mem_of_dropWhile (List.mem_of_mem_drop hm)),
                fun hm => hx3 (mem_of_dropWhile (List.mem_of_mem_drop hm)), fun e => ?_⟩
              cases x with
              | nil => exact absurd rfl hx1
              | cons c x =>
                dsimp only at e
                rw [List.takeWhile_cons] at e
                by_cases hcc : c = ':'
                · subst hcc; exact absurd rfl hc
                · rw [if_pos (by simpa using hcc)] at e
                  cases e
        · exact parms_ok _ [] _ (fun w hw => splitOn_pieces hw)
            ⟨List.nodup_nil, fun _ _ hm => (nomatch hm), fun _ _ hm => (nomatch hm)⟩ hp

end Bb.Url
