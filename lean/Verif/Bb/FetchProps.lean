import Verif.Bb.FetchLemmas6
/-!
# Properties of fetching
-/

namespace Bb.Fetch
open Py

section
variable {env : Env} {urls : List Ud} {w w' : World} {script : List Ev}

/-! ## What is fetched is right -/

/-- **C88.**  A fetch that works, in a download directory with any history and with any servers, leaves
for every URL a file that has all the checksums that the recipe gives.  Missing: a fetch in which an
operation on the disk fails or `wget` works without a file (`error_swallowed`), URLs of one recipe
with the same name (`same_name`), and `file://` URLs (`local_sum_ignored`). -/
theorem fetched_right_partial (hw : History env.hash w) (hh : HashOk env) (hs : Sane env urls)
    (hd : Delivers env) (hc : Calm script) (ha : Apart env urls)
    (h : download env urls false { w with script := script } = (.ok (), w')) :
    ∀ u, u ∈ urls →
      ∃ f, w'.files u.path = some f ∧ (u.isLocal = false → Right env u f.data) :=
  (download_owed urls hh hs hd (inv_calm (history_inv hw) fun _ => hc) h).2 ha

/-- **C88.**  The same for one URL, without the condition on names. -/
theorem fetched_one_right_partial {u : Ud} (hw : History env.hash w) (hh : HashOk env)
    (hs : Sane env [u]) (hd : Delivers env) (hc : Calm script)
    (h : download env [u] false { w with script := script } = (.ok (), w')) :
    ∃ f, w'.files u.path = some f ∧ (u.isLocal = false → Right env u f.data) :=
  fetched_right_partial hw hh hs hd hc (List.pairwise_singleton _ _) h u List.mem_cons_self

/-- **C89.**  With `BB_STRICT_CHECKSUM = "1"`, no fetch of a URL without checksums works.  Missing: a
fetch in which an operation on the disk fails (`strict_swallowed`). -/
theorem strict_fails_partial {u : Ud} (hw : History env.hash w) (hh : HashOk env) (hs : Sane env urls)
    (hd : Delivers env) (hc : Calm script) (h1 : env.strict = "1".toList) (hu : u ∈ urls)
    (hl : u.isLocal = false) (hn : Unsummed u) :
    download env urls false { w with script := script } ≠ (.ok (), w') := fun h =>
  (download_owed urls hh hs hd (inv_calm (history_inv hw) fun _ => hc) h).1 u hu hl ⟨h1, hl, hn⟩

/-! ## Crashes -/

/-- **C90.**  At every point where a fetch is killed, and at its end, each file is one that was there
before or one that `wget` has received completely: never a part of a file. -/
theorem files_whole (urls : List Ud) (missing : Bool) (w : World) (p : Str) (f : File)
    (h : (download env urls missing w).2.files p = some f) :
    (∃ p', w.files p' = some f) ∨ ∃ k url part, env.answer k url = .done part f := by
  let I : World → Prop := fun w' => ∀ p f, w'.files p = some f →
    (∃ p', w.files p' = some f) ∨ ∃ k url part, env.answer k url = .done part f
  have hupd : ∀ (w' : World) (x : Str) (v : Option File), I w' →
      (∀ g, v = some g → (∃ p', w.files p' = some g) ∨ ∃ k url part, env.answer k url = .done part g) →
      ∀ p f, upd w'.files x v p = some f →
        (∃ p', w.files p' = some f) ∨ ∃ k url part, env.answer k url = .done part f := by
    intro w' x v hI hv p f hf
    by_cases hp : p = x
    · rw [hp, upd_self] at hf
      exact hv f hf
    · rw [upd_ne _ _ _ _ hp] at hf
      exact hI p f hf
  have hcl : Closed env (fun _ => True) (fun _ => True) I :=
    { step := fun w s n h => h
      stamp := fun w x v _ h => h
      gone := fun w x _ h => hupd w x none h fun g e => by cases e
      move := fun w x c f _ _ h => hupd w x none h fun g e => by cases e
      link := fun w x t _ _ h => hupd w x _ h fun g e => h t g e
      tmp := fun w x v _ h => h
      put := fun w x f k url part _ ha h => hupd w x _ h fun g e => by
        cases e; exact Or.inr ⟨k, url, part, ha⟩
      contact := fun w url _ h => h }
  refine kept_download (I := I) urls (fun u _ => kept_fetchOne hcl trivial
    (fun m _ => ⟨trivial, fun _ _ => trivial⟩) (fun m _ => ⟨trivial, fun _ _ => trivial⟩)
    (fun _ _ => trivial)) missing w ?_ p f h
  exact fun p f hf => Or.inl ⟨p, hf⟩

/-- **C90.**  A download that is right is left as it is, whatever happens: no request is made and no
file is changed, even if the fetch is killed or the disk fails. -/
theorem right_download_kept {u : Ud} {f : File} (hw : History env.hash w) (hh : HashOk env)
    (hs : Sane env [u]) (hl : u.isLocal = false) (hf : w.files u.path = some f)
    (hr : Right env u f.data) (missing : Bool) :
    (download env [u] missing { w with script := script }).2.files = w.files ∧
      (download env [u] missing { w with script := script }).2.contacts = w.contacts := by
  have hi : Inv env.hash False { w with script := script } := inv_calm (history_inv hw) fun h => h.elim
  have hk := keeps_fetchOne (w0 := { w with script := script }) hh hs.plain hl
    (hs.checked u List.mem_cons_self) hi hf hr _ (Same.rfl _)
  have key : Keeps { w with script := script } (fetchOne env u { w with script := script }).2 := by
    cases hm : fetchOne env u { w with script := script } with
    | mk r w1 =>
      cases r with
      | ok a => exact hk.1 a w1 hm
      | error e => exact hk.2 e w1 hm
  have hd : (download env [u] missing { w with script := script }).2 =
      (fetchOne env u { w with script := script }).2 := by
    unfold download
    cases hm : fetchOne env u { w with script := script } with
    | mk r w1 =>
      cases r with
      | ok a => cases missing <;> rfl
      | error e =>
        cases e with
        | io s => cases s <;> cases missing <;> rfl
        | noChecksum => rfl
        | crash => rfl
        | checksum c => rfl
        | network => rfl
        | fetch => rfl
  rw [hd]
  exact ⟨key.1, key.2.1⟩

/-! ## Requests -/

/-- **C91.**  Every request over the network is allowed: the network is not disabled, the server is
trusted, and it is a premirror or, unless only premirrors may be used, the server of a URL or a
mirror.  This holds at every point where the fetch is killed. -/
theorem requests_allowed (urls : List Ud) (missing : Bool) (w : World) (url : Str)
    (h : url ∈ (download env urls missing w).2.contacts) :
    url ∈ w.contacts ∨
      (env.noNetwork = false ∧ env.trusted url = true ∧ ∃ u, u ∈ urls ∧
        ((∃ m, m ∈ env.premirrors u ∧ m.url = url) ∨
          (env.premirrorOnly = false ∧ (u.url = url ∨ ∃ m, m ∈ env.mirrors u ∧ m.url = url)))) := by
  let C : Str → Prop := fun url => env.noNetwork = false ∧ env.trusted url = true ∧ ∃ u, u ∈ urls ∧
    ((∃ m, m ∈ env.premirrors u ∧ m.url = url) ∨
      (env.premirrorOnly = false ∧ (u.url = url ∨ ∃ m, m ∈ env.mirrors u ∧ m.url = url)))
  let I : World → Prop := fun w' => ∀ url, url ∈ w'.contacts → url ∈ w.contacts ∨ C url
  have hcl : Closed env (fun _ => True) C I :=
    { step := fun w s n h => h
      stamp := fun w x v _ h => h
      gone := fun w x _ h => h
      move := fun w x c f _ _ h => h
      link := fun w x t _ _ h => h
      tmp := fun w x v _ h => h
      put := fun w x f k url part _ ha h => h
      contact := fun w x hx h url hu => by
        rcases List.mem_cons.1 hu with rfl | hu
        · exact Or.inr hx
        · exact h url hu }
  have hor : ∀ a b : Bool, (a || b) = false → a = false ∧ b = false := by decide
  refine kept_download (I := I) urls (fun u hu => kept_fetchOne hcl trivial
    (fun m hm => ⟨trivial, fun h1 h2 => ⟨h1, h2, u, hu, Or.inl ⟨m, hm, rfl⟩⟩⟩)
    (fun m hm => ⟨trivial, fun h1 h2 => ⟨(hor _ _ h1).1, h2, u, hu,
      Or.inr ⟨(hor _ _ h1).2, Or.inr ⟨m, hm, rfl⟩⟩⟩⟩)
    (fun h1 h2 => ⟨(hor _ _ h1).1, h2, u, hu, Or.inr ⟨(hor _ _ h1).2, Or.inl rfl⟩⟩)) missing w ?_ url h
  exact fun url hu => Or.inl hu

/-- **C91.**  Without network there are no requests. -/
theorem offline_silent (h : env.noNetwork = true) (urls : List Ud) (missing : Bool) (w : World) :
    ∀ url, url ∈ (download env urls missing w).2.contacts → url ∈ w.contacts := by
  intro url hu
  rcases requests_allowed urls missing w url hu with h1 | ⟨h1, _⟩
  · exact h1
  · rw [h] at h1; cases h1

/-! ## A fetch that must work -/

/-- **C92.**  If the servers of all the URLs always have the right files, are trusted and may be used,
the fetch works, in a download directory with any history (also after fetches that were killed) and
whatever the premirrors answer: no download directory makes the fetch fail for ever. -/
theorem served_works (hw : History env.hash w) (hh : HashOk env) (hs : Sane env urls)
    (hd : Delivers env) (hc : Calm script) (hn : env.noNetwork = false)
    (hp : env.premirrorOnly = false)
    (hu : ∀ u, u ∈ urls → u.isLocal = false ∧ env.trusted u.url = true ∧ Serves env u ∧
      (env.strict = "1".toList → ¬ Unsummed u)) :
    ∃ w', download env urls false { w with script := script } = (.ok (), w') := by
  have key : ∀ (l : List Ud) (w : World), Inv env.hash True w → (∀ u, u ∈ l → u ∈ urls) →
      ∃ w', download env l false w = (.ok (), w') := by
    intro l
    induction l with
    | nil => exact fun w _ _ => ⟨w, rfl⟩
    | cons u l ih =>
      intro w hi hl
      have hm := hl u List.mem_cons_self
      obtain ⟨h1, h2, h3, h4⟩ := hu u hm
      have ht := tri_fetchOne (q := True) hh hs.plain h1 (hs.checked u hm) (fun _ => hd) w hi
      unfold download
      cases hf : fetchOne env u w with
      | mk r w1 =>
        cases r with
        | ok a => exact ih w1 (ht.1 a w1 hf).1 fun x hx => hl x (List.mem_cons_of_mem _ hx)
        | error e => exact ((ht.2 e w1 hf).2.2 trivial hn hp h2 h3 fun hst => h4 hst.1 hst.2.2).elim
  exact key urls _ (inv_calm (history_inv hw) fun _ => hc) fun u h => h

end

/-! ## Examples and counterexamples -/

section examples

/-- A checksum that shows the contents. -/
def exHash (_ : Alg) (d : Str) : Str := 'h' :: d

/-- A URL with a checksum. -/
def exUd (url path : String) (sum : Option String) : Ud :=
  { url := url.toList, path := path.toList, isLocal := false, ignore := false
    expected := fun a => if a = .sha256 then sum.map String.toList else none }

/-- A file. -/
def exFile (d : String) (t : Nat) : File := ⟨d.toList, t⟩

/-- Servers: a table of answers; the others fail. -/
def exAnswer (l : List (String × Answer)) (_ : Nat) (url : Str) : Answer :=
  match l.find? (fun x => x.1.toList = url) with
  | some x => x.2
  | none => .fail none

/-- A configuration with network. -/
def exEnv (l : List (String × Answer)) (pre mir : List Ud) : Env :=
  { hash := exHash, strict := "0".toList, noNetwork := false, premirrorOnly := false
    trusted := fun _ => true, premirrors := fun u => if u.isLocal then [] else pre
    mirrors := fun u => if u.isLocal then [] else mir
    answer := exAnswer l, plain := fun _ => true }

/-- An empty download directory. -/
def exWorld : World :=
  { files := fun _ => none, tmps := fun _ => none, stamps := fun _ => none, now := 5, script := []
    contacts := [], bad := [] }

/-- A directory with files. -/
def exFiles (l : List (String × File)) : World :=
  { exWorld with files := fun p => (l.find? fun x => x.1.toList = p).map Prod.snd }

/-- Did it work, and what is at a path? -/
def exRun (env : Env) (urls : List Ud) (w : World) (path : String) : Bool × Option File :=
  ((download env urls false w).1.toOption.isSome, (download env urls false w).2.files path.toList)

def exU : Ud := exUd "http://a/x" "x" (some "hGOOD")
def exBad : Answer := .done (exFile "BA" 1) (exFile "BAD" 2)
def exGood : Answer := .done (exFile "GO" 1) (exFile "GOOD" 2)
def exPre : Ud := exUd "http://pre/x" "x" none

theorem exHash_ok (l : List (String × Answer)) (pre mir : List Ud) : HashOk (exEnv l pre mir) :=
  fun a d h => by cases h

theorem exSane (l : List (String × Answer)) (pre mir : List Ud) (u : Ud) (h : u.ignore = false) :
    Sane (exEnv l pre mir) [u] :=
  ⟨fun _ => rfl, fun x hx => by rw [List.mem_singleton.1 hx]; exact h,
    fun x hx hl => by unfold exEnv; simp only [hl]; exact ⟨rfl, rfl⟩⟩

/-- The premirror has a wrong file, the server the right one: the hypotheses of the theorems are met
and the right file is there. -/
example : exRun (exEnv [("http://pre/x", exBad), ("http://a/x", exGood)] [exPre] []) [exU] exWorld "x" =
    (true, some (exFile "GOOD" 2)) := by decide +kernel

example : Delivers (exEnv [("http://pre/x", exBad), ("http://a/x", exGood)] [exPre] []) := by
  intro k url h
  unfold exEnv exAnswer at h
  dsimp only at h
  by_cases h1 : "http://pre/x".toList = url
  · simp only [List.find?, h1, decide_true] at h
    cases h
  · by_cases h2 : "http://a/x".toList = url
    · simp only [List.find?, h1, h2, decide_true, decide_false] at h
      cases h
    · simp only [List.find?, h1, h2, decide_false] at h
      cases h

example : Serves (exEnv [("http://pre/x", exBad), ("http://a/x", exGood)] [exPre] []) exU := by
  intro k
  refine ⟨exFile "GO" 1, exFile "GOOD" 2, rfl, by decide, ?_⟩
  intro a s h hs
  cases a <;> cases h
  rfl

example : Calm [.ok 1, .ok 0] := by
  intro e he
  rcases List.mem_cons.1 he with rfl | he
  · exact ⟨1, rfl⟩
  · exact ⟨0, List.mem_singleton.1 he⟩

/-- Two URLs that do not get in each other's way. -/
example : Apart (exEnv [] [] []) [exU, exUd "http://a/y" "y" none] := by
  refine List.pairwise_pair.2 ?_
  rintro (h | ⟨m, hm, _⟩ | ⟨m, hm, _⟩)
  · exact absurd h (by decide)
  · exact nomatch hm
  · exact nomatch hm

/-- A history with a fetch that is killed, and a fetch after it that works. -/
example (l : List (String × Answer)) : History exHash
    (download (exEnv l [exPre] []) [exU] false { exWorld with script := [.ok 1, .crash] }).2 :=
  .fetch (.start fun _ => rfl) rfl (exHash_ok _ _ _) (exSane _ _ _ _ rfl)

example : exRun (exEnv [("http://a/x", exGood)] [] []) [exU] { (download
      (exEnv [("http://a/x", exGood)] [] []) [exU] false { exWorld with script := [.ok 1, .crash] }).2
      with script := [] } "x" = (true, some (exFile "GOOD" 2)) := by decide +kernel

/-- With `BB_STRICT_CHECKSUM` and no checksum the fetch fails. -/
example : exRun { exEnv [("http://a/x", exGood)] [] [] with strict := "1".toList }
    [exUd "http://a/x" "x" none] exWorld "x" = (false, some (exFile "GOOD" 2)) := by decide +kernel

/-- **C88** is not true as it stands: `wget` works without a file, `os.rename` fails with an `IOError`,
and `Fetch.download` returns as if all were well. -/
theorem error_swallowed : ∃ (env : Env) (u : Ud) (w : World), History env.hash w ∧ HashOk env ∧
    Sane env [u] ∧ Calm w.script ∧ u.isLocal = false ∧ ¬ Unsummed u ∧
    exRun env [u] w "x" = (true, none) ∧ u.path = "x".toList := by
  refine ⟨exEnv [("http://a/x", .nothing)] [] [], exU, exWorld, .start fun _ => rfl,
    exHash_ok _ _ _, exSane _ _ _ _ rfl, fun e he => (nomatch he), rfl, ?_, by decide +kernel, rfl⟩
  intro h
  exact absurd (h .sha256 "hGOOD".toList rfl) (by decide)

/-- The same with a server that has the file and a disk that fails once: the file is not there, and
`Fetch.download` returns as if all were well. -/
theorem disk_error_swallowed :
    exRun (exEnv [("http://a/x", exGood)] [] []) [exU]
      { exWorld with script := [.fault false] } "x" = (true, none) := by decide +kernel

/-- **C89** is not true as it stands: with `BB_STRICT_CHECKSUM = "1"` and no checksum, a disk that fails
once makes the fetch work. -/
theorem strict_swallowed :
    exRun { exEnv [("http://a/x", exGood)] [] [] with strict := "1".toList }
      [exUd "http://a/x" "x" none] { exWorld with script := [.fault false] } "x" = (true, none) := by
  decide +kernel

/-- Two URLs of a recipe whose files have the same name: the second replaces the file of the first,
and the fetch works, although the file has not the checksum of the first. -/
theorem same_name :
    exRun (exEnv [("http://a/x", exGood), ("http://b/x", exBad)] [] [])
      [exU, exUd "http://b/x" "x" (some "hBAD")] exWorld "x" = (true, some (exFile "BAD" 2)) := by
  decide +kernel

/-- The checksum of a `file://` URL is never looked at. -/
theorem local_sum_ignored :
    exRun (exEnv [] [] []) [{ exU with isLocal := true }] (exFiles [("x", exFile "BAD" 1)]) "x" =
      (true, some (exFile "BAD" 1)) := by decide +kernel

/-- A file that is put in the place of a download with an old time (`cp -p`) is taken, whatever is
in it. -/
theorem old_file_taken :
    exRun (exEnv [] [] []) [exU]
      { (download (exEnv [("http://a/x", exGood)] [] []) [exU] false exWorld).2 with
        files := upd (fun _ => none) "x".toList (some (exFile "BAD" 1)) } "x" =
      (true, some (exFile "BAD" 1)) := by decide +kernel

/-- A name with a `[` in it: the done stamp of a download that was removed stays, because
`bb.utils.remove` takes the name for a pattern, and then the file of a premirror is not checked. -/
theorem bracket_unchecked :
    let env : Env := { exEnv [("http://a/x", exGood)] [] [] with plain := fun _ => false }
    let env' : Env := { exEnv [("http://pre/x", exBad)] [exPre] [] with plain := fun _ => false }
    exRun env' [exU] { (download env [exU] false exWorld).2 with files := fun _ => none } "x" =
      (true, some (exFile "BAD" 2)) := by decide +kernel

/-- The first mirror has a wrong file, the second the right one: the fetch fails, because the checksum
is looked at after the choice of the mirror.  (With premirrors in the place of mirrors the fetch fails
as well if there is no server.) -/
theorem second_mirror_unused :
    exRun (exEnv [("http://m1/x", exBad), ("http://m2/x", exGood)] []
        [exUd "http://m1/x" "x" none, exUd "http://m2/x" "x" none]) [exU] exWorld "x" = (false, none) ∧
      exRun (exEnv [("http://m1/x", exBad), ("http://m2/x", exGood)] []
        [exUd "http://m2/x" "x" none, exUd "http://m1/x" "x" none]) [exU] exWorld "x" =
        (true, some (exFile "GOOD" 2)) := by decide +kernel

/-- Without network, a premirror on the network before one on the disk makes the fetch fail. -/
theorem offline_order :
    let disk : Ud := { exUd "file:///m/x" "m/x" none with isLocal := true }
    let w := exFiles [("m/x", exFile "GOOD" 1)]
    exRun { exEnv [] [exPre, disk] [] with noNetwork := true } [exU] w "x" = (false, none) ∧
      exRun { exEnv [] [disk, exPre] [] with noNetwork := true } [exU] w "x" =
        (true, some (exFile "GOOD" 1)) := by decide +kernel

/-- The fetch of a URL with a new checksum moves the old file out of a mirror on the disk. -/
theorem mirror_emptied :
    let disk : Ud := { exUd "file:///m/x" "m/x" none with isLocal := true }
    exRun (exEnv [("http://a/x", exGood)] [disk] []) [exU] (exFiles [("m/x", exFile "BAD" 1)]) "m/x" =
      (true, none) := by decide +kernel

end examples

end Bb.Fetch
