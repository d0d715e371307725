import Verif.Lemmas.Mirror
/-
  Property theorems for RRDP, the cache directory and rsync URLs: C31 - C37, C65.
-/
set_option autoImplicit false

namespace Verif.Props
open Path Rrdp Cache SyncSpec
open Tal (rsyncScheme)

/-- Bytes of a text. -/
def tx (s : String) : Bytes := asc s.toList

/-! ### A concrete server and cache -/

/-- An operating system that refuses nothing. -/
def osFine : OS := ⟨fun _ _ => true, fun _ _ _ => (true, none)⟩

def baseS : Bytes := tx "/cache/"
def uX : Bytes := tx "rsync://a/m/x.roa"
def uY : Bytes := tx "rsync://a/m/y.roa"
def domS : Bytes := tx "rsync://a/"
def pathS : Bytes := tx "https://a/n.xml"

/-- The server's history: at serial 1 it holds `x`, at 2 a new `x` and `y`, at 3 `y` is withdrawn. -/
def contentS (k : Int) (u : Bytes) : Option Bytes :=
  if k = 1 then [(uX, ([1] : Bytes))].lookup u
  else if k = 2 then [(uX, ([2] : Bytes)), (uY, [3])].lookup u
  else if k = 3 then [(uX, ([2] : Bytes))].lookup u
  else none

def noteS : Notification := ⟨tx "S", 3, ⟨3, tx "s3", []⟩, [⟨3, tx "d3", []⟩, ⟨2, tx "d2", []⟩, ⟨1, tx "d1", []⟩]⟩

/-- The files have the same name as content; the parsers are tables. -/
def worldS : World where
  getXML := fun _ u => if u = pathS then some (tx "n") else some u
  parseRoot := fun d => if d = tx "n" then some noteS else none
  parseNode := fun d =>
    [(tx "s3", ([⟨uX, tx "Ag=="⟩], [])), (tx "d1", ([⟨uX, tx "AQ=="⟩], [])),
     (tx "d2", ([⟨uX, tx "Ag =="⟩, ⟨uY, tx "Aw==\n"⟩], [])), (tx "d3", ([], [⟨uY, []⟩]))].lookup d

/-- The cache of a client at serial 1. -/
def fsS : FS := ⟨ancestors (clean (tx "/cache/a/m")), [(clean (tx "/cache/a/m/x.roa"), [1])]⟩
def sysS : Sys := ⟨pathS, tx "S", 1⟩

def runS : Go (Sys × R FS × Bool) := Rrdp.fetchRRDP worldS (callback osFine baseS domS) sysS ⟨fsS, [], []⟩

/-- What is looked at in a run, in a form that can be computed. -/
def seen (x : Go (Sys × R FS × Bool)) : Option (Sys × List Bytes × Bool × List (Option Bytes)) :=
  match x with
  | .ok (s, r, b) => some (s, r.gets, b, [r.st.file (target baseS uX), r.st.file (target baseS uY)])
  | _ => none

/-! ## C31 — RRDP files stay in the cache directory -/

/-- **C31, files.** A file that is changed or created for a URI lies under the cache directory. -/
theorem C31_file (os : OS) (base : Bytes) (hb : base ≠ []) (fs fs' : FS) (url d : Bytes) (b : Bool)
    (h : writeRsyncFile os base fs url d = .ok (fs', b)) (p : P) (hp : fs'.file p ≠ fs.file p) :
    Under (clean base) p := by
  obtain ⟨_, rfl, h2⟩ := write_place hb h p hp
  exact ⟨rfl, keep (splitSlash (url.drop 8)), rfl, keep_no_up (fun c hc e => h2 (e ▸ hc))⟩

/-- **C31, files, whole run.** Whatever a server sends, every file that a synchronisation changes or creates lies
    under the cache directory. -/
theorem C31_files (W : World) (os : OS) (base : Bytes) (hb : base ≠ []) (domainOf : Bytes → Option Bytes)
    (path rsyncURL : Bytes) (fs fs' : FS) (info info' : Info) (b : Bool)
    (h : Cache.fetchRRDP W os base domainOf path rsyncURL fs info = .ok (fs', info', b)) (p : P)
    (hp : fs'.file p ≠ fs.file p) : Under (clean base) p := by
  unfold Cache.fetchRRDP at h
  obtain ⟨⟨s', r, b'⟩, hx, hrun⟩ := Go.bind_eq_ok.mp h
  have hfs : fs' = r.st := by
    simp only at hrun
    split at hrun <;> simp at hrun <;> exact hrun.1.symm
  subst hfs
  have hex := fetch_exec hx
  generalize r.calls = l at hex
  generalize hst : r.st = st at hex hp
  clear hst h hx hrun
  induction hex with
  | nil => exact (hp rfl).elim
  | cons s s1 s2 c ok l hc _ ih =>
    by_cases h1 : s1.file p = s.file p
    · exact ih (by rw [h1]; exact hp)
    · unfold callback at hc
      split at hc
      · exact C31_file os base hb s s1 c.path c.data ok hc p h1
      · simp at hc; rw [hc.1] at h1; exact (h1 rfl).elim

example : seen runS = some (⟨pathS, tx "S", 3⟩, [pathS, tx "d2", tx "d3"], true, [some [2], some []]) := by decide +kernel
example : baseS ≠ [] ∧ target baseS uX = clean (tx "/cache/a/m/x.roa") := by decide +kernel

/-- **C31, directories, what holds.** For a URI without `../` every directory that is made lies under the cache
    directory or leads to it. Missing: other URIs, see below. -/
theorem C31_dirs_partial (os : OS) (base : Bytes) (hb : base ≠ []) (fs fs' : FS) (url d : Bytes) (b : Bool)
    (hu : ¬ [46, 46, 47] <:+: url.drop 8)
    (h : writeRsyncFile os base fs url d = .ok (fs', b)) (p : P) (hp : p ∈ fs'.dirs) (hn : p ∉ fs.dirs) :
    Under (clean base) p ∨ (p.rooted = (clean base).rooted ∧ p.comps <+: (clean base).comps) := by
  obtain ⟨_, fs1, h1, h2⟩ := write_spec h
  have hd : fs'.dirs = fs1.dirs := by
    rcases h2 with ⟨_, rfl, _⟩ | ⟨_, h2⟩
    · rfl
    · exact (writeFile_spec h2).1
  obtain ⟨init, last, g1, g2⟩ := split_last (url.drop 8)
  rw [g2, folders_eq hb g1 hu] at h1
  rw [hd, (file_mkdir h1).2] at hp
  simp only [List.mem_append, hn, or_false] at hp
  simp only [ancestors, List.mem_map, List.mem_range] at hp
  obtain ⟨k, _, rfl⟩ := hp
  simp only [Under, List.take_append]
  by_cases hk : k ≤ (clean base).comps.length
  · right
    refine ⟨trivial, ?_⟩
    rw [Nat.sub_eq_zero_of_le hk]
    simpa using List.take_prefix k _
  · left
    refine ⟨trivial, (keep init).take (k - (clean base).comps.length), ?_, ?_⟩
    · rw [List.take_of_length_le (by omega)]
    · intro hm
      exact keep_no_up (up_infix g1 hu) (List.mem_of_mem_take hm)

example : ¬ [46, 46, 47] <:+: uX.drop 8 := by decide +kernel
example : (match writeRsyncFile osFine baseS ⟨[], []⟩ uX [1] with
    | .ok (f, b) => b && f.dirs.contains (clean (tx "/cache/a/m")) | _ => false) = true := by decide +kernel

/-- **C31 is violated for directories.** The directories are made before the URI is checked: for
    `rsync://../etc/evil/x` a directory `/etc/evil` outside of `/cache` is made. -/
theorem C31_violated_dirs : ∃ (url d : Bytes) (fs fs' : FS) (b : Bool),
    writeRsyncFile osFine baseS fs url d = .ok (fs', b) ∧
    ∃ p, p ∈ fs'.dirs ∧ p ∉ fs.dirs ∧ p = clean (tx "/etc/evil") ∧ ¬ (clean baseS).comps <+: p.comps ∧ ¬ p.comps <+: (clean baseS).comps :=
  ⟨tx "rsync://../etc/evil/x", [], ⟨[], []⟩, ⟨ancestors (clean (tx "/etc/evil")), []⟩, false, by decide +kernel,
    clean (tx "/etc/evil"), by decide +kernel, by decide +kernel, rfl, by decide +kernel, by decide +kernel⟩

/-- **C31 needs a cache directory.** With an empty name for it, a URI with an empty host gives an absolute
    path. -/
theorem C31_violated_empty_base : ∃ fs', writeRsyncFile osFine [] ⟨[], []⟩ (tx "rsync:///etc/x") [1] = .ok (fs', true) ∧
    fs'.file (clean (tx "/etc/x")) = some [1] :=
  ⟨⟨ancestors (clean (tx "/etc")), [(clean (tx "/etc/x"), [1])]⟩, by decide +kernel, by decide +kernel⟩

/-! ## C32 — an RRDP server can only write its own domain -/

/-- **C32, what holds.** A file changes only if the URI contains the bound domain. -/
theorem C32_contains_partial (os : OS) (base domain : Bytes) (fs fs' : FS) (c : Call) (b : Bool)
    (h : callback os base domain fs c = .ok (fs', b)) (hc : fs' ≠ fs) : domain <:+: c.path := by
  by_cases hd : domain <:+: c.path
  · exact hd
  · exact (hc ((callback_file h).2.2 hd).1).elim

/-- **C32, what holds.** With the domain `rsync://host/` a changed file lies in the directory of the host, or one
    element of its path ends in `rsync:`. -/
theorem C32_place_partial (os : OS) (base host : Bytes) (hb : base ≠ []) (hh : (47 : UInt8) ∉ host) (h1 : host ≠ []) (h2 : host ≠ dot)
    (fs fs' : FS) (c : Call) (b : Bool)
    (h : callback os base (rsyncScheme ++ host ++ [47]) fs c = .ok (fs', b)) (p : P) (hp : fs'.file p ≠ fs.file p) :
    Under ⟨(clean base).rooted, (clean base).comps ++ [host]⟩ p ∨ ∃ e ∈ p.comps, tx "rsync:" <:+ e := by
  have hd := C32_contains_partial os base _ fs fs' c b h (fun e => hp (by rw [e]))
  unfold callback at h
  rw [if_pos ((contains_iff _ _).mpr hd)] at h
  obtain ⟨g1, rfl, g3⟩ := write_place hb h p hp
  obtain ⟨pre, post, hpp⟩ := hd
  have hs : rsyncScheme <+: pre ++ rsyncScheme ++ (host ++ [47] ++ post) := by
    rw [← hpp] at g1; simpa using g1
  rcases scheme_occurs pre _ hs with rfl | ⟨q, rfl⟩
  · left
    have hdrop : c.path.drop 8 = host ++ 47 :: post := by
      rw [← hpp]; simp [rsyncScheme, asc]
    rw [hdrop, splitSlash_append, splitSlash_plain host hh] at g3 ⊢
    refine ⟨rfl, keep (splitSlash post), ?_, ?_⟩
    · simp [keep, h1, h2]
    · exact keep_no_up (fun c hc e => g3 (by rw [← e]; simp [hc]))
  · right
    have hdrop : c.path.drop 8 = (q ++ tx "rsync:") ++ 47 :: (47 :: host ++ 47 :: post) := by
      rw [← hpp]; simp [rsyncScheme, asc, tx]
    rw [hdrop, splitSlash_append]
    obtain ⟨l, e, he, hsuf⟩ := split_suffix q (tx "rsync:") (by decide +kernel)
    rw [he]
    refine ⟨e, ?_, hsuf⟩
    have hlen := hsuf.length_le
    have h6 : (tx "rsync:").length = 6 := by decide +kernel
    simp only [keep, List.mem_append, List.mem_filter]
    right
    refine ⟨.inl (by simp), ?_⟩
    have n1 : e ≠ [] := by intro e'; rw [e', h6] at hlen; simp at hlen
    have n2 : e ≠ dot := by intro e'; rw [e', h6] at hlen; simp [dot] at hlen
    simp [n1, n2]

example : domS = rsyncScheme ++ tx "a" ++ [47] := by decide +kernel
example : (match callback osFine baseS domS ⟨[], []⟩ ⟨[], [], uX, [1], false, true, 1⟩ with
    | .ok (f, b) => b && decide (f.file (clean (tx "/cache/a/m/x.roa")) = some [1]) | _ => false) = true := by decide +kernel

/-- **C32 is violated.** The domain is searched anywhere in the URI: the server of `a` writes below `victim`. -/
theorem C32_violated_substring : ∃ uri fs', ¬ domS <+: uri ∧
    callback osFine baseS domS ⟨[], []⟩ ⟨[], [], uri, [1], false, true, 1⟩ = .ok (fs', true) ∧
    fs'.file (clean (tx "/cache/victim/m/rsync:/a/x.roa")) = some [1] :=
  ⟨tx "rsync://victim/m/rsync://a/x.roa",
    ⟨ancestors (clean (tx "/cache/victim/m/rsync:/a")), [(clean (tx "/cache/victim/m/rsync:/a/x.roa"), [1])]⟩,
    by decide +kernel, by decide +kernel, by decide +kernel⟩

/-- **C32 is violated.** A URI of another scheme that contains the domain ends the process, whatever the file
    system. -/
theorem C32_violated_scheme (os : OS) (base : Bytes) (fs : FS) (d : Bytes) :
    domS <:+: tx "https://rsync://a/x" ∧
    callback os base domS fs ⟨[], [], tx "https://rsync://a/x", d, false, true, 1⟩ = .panic := by
  refine ⟨by decide +kernel, ?_⟩
  unfold callback
  have h1 : contains (tx "https://rsync://a/x") domS = true := by decide +kernel
  have h2 : isRsyncURL (tx "https://rsync://a/x") = false := by decide +kernel
  simp [h1, writeRsyncFile, extractFolders, extractFilePath, h2]

/-- A snapshot with a file and a file below it. -/
def worldStop : World := { worldS with
  parseNode := fun _ => some ([⟨uX, tx "AQ=="⟩, ⟨uX ++ tx "/y", tx "AQ=="⟩], []) }

/-- **C32 is violated.** A server that publishes a file and then a file "below" it ends the process, although both
    URIs are its own. -/
theorem C32_violated_file_as_directory :
    domS <+: uX ∧ domS <+: uX ++ tx "/y" ∧
    Rrdp.fetchRRDP worldStop (callback osFine baseS domS) ⟨pathS, [], 0⟩ ⟨⟨[], []⟩, [], []⟩ = .panic :=
  ⟨by decide +kernel, by decide +kernel, by
    generalize hx : Rrdp.fetchRRDP worldStop (callback osFine baseS domS) ⟨pathS, [], 0⟩ ⟨⟨[], []⟩, [], []⟩ = x
    have : (match Rrdp.fetchRRDP worldStop (callback osFine baseS domS) ⟨pathS, [], 0⟩ ⟨⟨[], []⟩, [], []⟩ with
      | .panic => true | _ => false) = true := by decide +kernel
    rw [hx] at this
    revert this
    cases x <;> simp⟩

/-- **C32, what holds.** A URI does not stop the process if it is an rsync URI, no directory of its path is a file
    and the system makes the directories. -/
theorem C32_no_stop_partial (os : OS) (base domain : Bytes) (fs : FS) (c : Call) (hs : rsyncScheme <+: c.path)
    (hm : ∀ p, os.mkdir fs p = true)
    (hf : ∀ p, p.rooted = (joinPath base (joinSlash (splitSlash (c.path.drop 8)).dropLast)).rooted →
      p.comps <+: (joinPath base (joinSlash (splitSlash (c.path.drop 8)).dropLast)).comps → fs.file p = none) :
    ∃ fs' b, callback os base domain fs c = .ok (fs', b) := by
  unfold callback
  split
  · have hr := (hasPrefix_iff _ _).mpr hs
    unfold writeRsyncFile extractFolders extractFilePath
    simp only [isRsyncURL, hr, if_true]
    rw [trim_rsync hr]
    unfold FS.mkdirAll
    rw [hm, if_pos]
    · simp only
      split
      · exact ⟨_, _, rfl⟩
      · exact ⟨_, _, rfl⟩
    · simp only [Bool.true_and, List.all_eq_true]
      intro p hp
      simp only [ancestors, List.mem_map] at hp
      obtain ⟨k, _, rfl⟩ := hp
      rw [Option.isNone_iff_eq_none]
      exact hf ⟨_, _⟩ rfl (List.take_prefix _ _)
  · exact ⟨_, _, rfl⟩

example : rsyncScheme <+: uX ∧ (∀ p, osFine.mkdir ⟨[], []⟩ p = true) ∧ (∀ p, (⟨[], []⟩ : FS).file p = none) :=
  ⟨by decide +kernel, fun _ => rfl, fun _ => rfl⟩

/-! ## C33 — snapshot or deltas -/

variable {σ : Type}

/-- **C33, snapshot.** If the notification can be read and the snapshot is needed, exactly the snapshot is downloaded;
    if the run succeeds the callback was called, in order, for its elements, and never failed. -/
theorem C33_snapshot (W : World) (cb : Callback σ) (s s' : Sys) (st : σ) (r : R σ) (b : Bool) (n : Notification)
    (h : Rrdp.fetchRRDP W cb s ⟨st, [], []⟩ = .ok (s', r, b)) (hn : (W.getXML 0 s.path).bind W.parseRoot = some n)
    (hs : SnapshotNeeded s n) :
    r.gets = [s.path, n.snapshot.uri] ∧ Exec cb st r.calls r.st ∧
    (b = true → (∀ x ∈ r.calls, x.2 = true) ∧ ∃ d node, W.getXML 1 n.snapshot.uri = some d ∧ W.parseNode d = some node ∧
      nodeCalls s n true n.serial node = some (r.calls.map (·.1))) := by
  obtain ⟨_, g⟩ := fetch_spec W cb s s' _ r b h
  rcases g with ⟨_, hnone⟩ | ⟨n', hn', g⟩
  · simp only [List.length_nil] at hnone; rw [hn] at hnone; simp at hnone
  simp only [List.length_nil] at hn'
  rw [hn] at hn'
  simp at hn'
  subst hn'
  rcases g with ⟨_, done, d1, _, d3, _, d4⟩ | ⟨hs', _⟩
  · have hc : r.calls = done := by simpa using d1.calls
    refine ⟨by simpa using d1.gets, fetch_exec h, fun hb => ?_⟩
    obtain ⟨_, d, node, q⟩ := d4 hb
    rw [hc]
    exact ⟨d3 hb, d, node, by simpa using q⟩
  · exact (hs' hs).elim

/-- **C33, deltas.** If the snapshot is not needed, the downloads are deltas from the client's serial + 1 on, in
    increasing order, each once, up to the announced serial if the run succeeds; then the callback was called, in
    order, for their elements. -/
theorem C33_deltas (W : World) (cb : Callback σ) (s s' : Sys) (st : σ) (r : R σ) (b : Bool) (n : Notification)
    (h : Rrdp.fetchRRDP W cb s ⟨st, [], []⟩ = .ok (s', r, b)) (hn : (W.getXML 0 s.path).bind W.parseRoot = some n)
    (hs : ¬ SnapshotNeeded s n) :
    ∃ es, r.gets = s.path :: es.map (·.uri) ∧ InOrder n (s.serial + 1) es ∧ Exec cb st r.calls r.st ∧
      es.length ≤ (n.serial - s.serial).toNat ∧
      (b = true → es.length = (n.serial - s.serial).toNat ∧ DeltaCalls W s n 1 es (r.calls.map (·.1)) ∧
        ∀ x ∈ r.calls, x.2 = false → x.1.withdraw = true) := by
  obtain ⟨_, g⟩ := fetch_spec W cb s s' _ r b h
  rcases g with ⟨_, hnone⟩ | ⟨n', hn', g⟩
  · simp only [List.length_nil] at hnone; rw [hn] at hnone; simp at hnone
  simp only [List.length_nil] at hn'
  rw [hn] at hn'
  simp at hn'
  subst hn'
  rcases g with ⟨hs', _⟩ | ⟨_, es, done, d1, d2, d3, d4, _, d6, d7, _⟩
  · exact (hs hs').elim
  · have hc : r.calls = done := by simpa using d1.calls
    refine ⟨es, by simpa using d1.gets, d2, fetch_exec h, d3, fun hb => ⟨d4 hb, ?_, ?_⟩⟩
    · rw [hc]; exact (d7 hb).2
    · rw [hc]; exact fun x hx hf => d6 x hx hf hb

/-- **C33, no notification.** Without a readable notification nothing else is downloaded and nothing is applied. -/
theorem C33_no_notification (W : World) (cb : Callback σ) (s s' : Sys) (st : σ) (r : R σ) (b : Bool)
    (h : Rrdp.fetchRRDP W cb s ⟨st, [], []⟩ = .ok (s', r, b)) (hn : (W.getXML 0 s.path).bind W.parseRoot = none) :
    r.gets = [s.path] ∧ r.calls = [] ∧ r.st = st ∧ b = false := by
  obtain ⟨_, g⟩ := fetch_spec W cb s s' _ r b h
  rcases g with ⟨⟨_, g1, g2, g3, g4, _⟩, _⟩ | ⟨n', hn', _⟩
  · exact ⟨by simpa using g1, g2, g3, g4⟩
  · simp only [List.length_nil] at hn'; rw [hn] at hn'; simp at hn'

example : ¬ SnapshotNeeded sysS noteS := by
  rw [← needSnapshot_iff]; decide +kernel
example : SnapshotNeeded ⟨pathS, tx "old", 1⟩ noteS := by
  rw [← needSnapshot_iff]; decide +kernel
example : (worldS.getXML 0 pathS).bind worldS.parseRoot = some noteS := by decide +kernel
example : seen (Rrdp.fetchRRDP worldS (callback osFine baseS domS) ⟨pathS, tx "old", 1⟩ ⟨fsS, [], []⟩) =
    some (⟨pathS, tx "S", 3⟩, [pathS, tx "s3"], true, [some [2], none]) := by decide +kernel

/-! ## C34 — the session state is updated atomically -/

/-- **C34, failure.** After a failed run session and serial are as before. -/
theorem C34_failure (W : World) (cb : Callback σ) (s s' : Sys) (st : σ) (r : R σ)
    (h : Rrdp.fetchRRDP W cb s ⟨st, [], []⟩ = .ok (s', r, false)) : s' = s :=
  (fetch_spec W cb s s' _ r false h).1 rfl

/-- **C34, success.** After a successful run the session is the announced one; the serial is the announced one,
    except if within the same session the server announced an older one: then it stays. -/
theorem C34_success (W : World) (cb : Callback σ) (s s' : Sys) (st : σ) (r : R σ)
    (h : Rrdp.fetchRRDP W cb s ⟨st, [], []⟩ = .ok (s', r, true)) :
    ∃ n, (W.getXML 0 s.path).bind W.parseRoot = some n ∧ s'.path = s.path ∧ s'.sessionID = n.sessionID ∧
      (s'.serial = n.serial ∨ (s'.sessionID = s.sessionID ∧ n.serial < s.serial ∧ s'.serial = s.serial)) := by
  obtain ⟨_, g⟩ := fetch_spec W cb s s' _ r true h
  rcases g with ⟨⟨_, _, _, _, hb, _⟩, _⟩ | ⟨n, hn, g⟩
  · simp at hb
  refine ⟨n, by simpa using hn, ?_⟩
  rcases g with ⟨_, _, _, _, _, _, d4⟩ | ⟨hs, es, done, d1, d2, d3, d4, _, d6, d7, _⟩
  · obtain ⟨rfl, _⟩ := d4 rfl; exact ⟨rfl, rfl, .inl rfl⟩
  · obtain ⟨rfl, _⟩ := d7 rfl
    refine ⟨rfl, rfl, ?_⟩
    have hses : s.sessionID = n.sessionID := by
      by_cases e : s.sessionID = n.sessionID
      · exact e
      · exact (hs (.inr (.inl e))).elim
    simp only
    by_cases hlt : n.serial < s.serial
    · right; exact ⟨hses.symm, hlt, by omega⟩
    · left; omega

/-- **C34, never back.** Within a session the serial never goes back. (A client without a serial takes any
    non-negative one.) -/
theorem C34_monotone (W : World) (cb : Callback σ) (s s' : Sys) (st : σ) (r : R σ) (b : Bool)
    (h : Rrdp.fetchRRDP W cb s ⟨st, [], []⟩ = .ok (s', r, b)) (hses : s'.sessionID = s.sessionID)
    (hpos : s.serial ≠ 0 ∨ ∀ d n, W.parseRoot d = some n → 0 ≤ n.serial) : s.serial ≤ s'.serial := by
  cases b with
  | false => rw [C34_failure W cb s s' st r h]; exact Int.le_refl _
  | true =>
    obtain ⟨_, g⟩ := fetch_spec W cb s s' _ r true h
    rcases g with ⟨⟨_, _, _, _, hb, _⟩, _⟩ | ⟨n, hn, g⟩
    · simp at hb
    rcases g with ⟨hs, _, _, _, _, _, d4⟩ | ⟨hs, es, done, d1, d2, d3, d4, _, d6, d7, _⟩
    · obtain ⟨rfl, _⟩ := d4 rfl
      simp only at hses ⊢
      rcases hs with h0 | hne | ⟨k, h1, h2, _⟩
      · rcases hpos with hp | hp
        · exact (hp h0).elim
        · rw [h0]
          obtain ⟨x, _, hx⟩ := Option.bind_eq_some_iff.mp hn
          exact hp x n hx
      · exact (hne hses.symm).elim
      · omega
    · obtain ⟨rfl, _⟩ := d7 rfl; simp only; omega

/-- **C34, kept state.** At the level of the validator: a failed run keeps all entries; a successful one sets exactly the
    entry of its rsync URL. -/
theorem C34_kept (W : World) (os : OS) (base : Bytes) (domainOf : Bytes → Option Bytes) (path rsyncURL : Bytes)
    (fs fs' : FS) (info info' : Info) (b : Bool)
    (h : Cache.fetchRRDP W os base domainOf path rsyncURL fs info = .ok (fs', info', b)) :
    (b = false → info' = info) ∧ (∀ u, u ≠ rsyncURL → info'.lookup u = info.lookup u) ∧
    (b = true → ∃ n, (W.getXML 0 path).bind W.parseRoot = some n ∧ ∃ k, info'.lookup rsyncURL = some (n.sessionID, k) ∧
      (k = n.serial ∨ ∃ old, info.lookup rsyncURL = some (n.sessionID, old) ∧ n.serial < old ∧ k = old)) := by
  have hpath : (newSys info path rsyncURL).path = path := by unfold newSys; split <;> rfl
  unfold Cache.fetchRRDP at h
  obtain ⟨⟨s', r, b'⟩, hx, hrun⟩ := Go.bind_eq_ok.mp h
  simp only at hrun
  cases b' with
  | false =>
    simp at hrun
    obtain ⟨_, rfl, rfl⟩ := hrun
    exact ⟨fun _ => rfl, fun _ _ => rfl, by simp⟩
  | true =>
    simp at hrun
    obtain ⟨_, rfl, rfl⟩ := hrun
    refine ⟨by simp, ?_, fun _ => ?_⟩
    · intro u hu
      have : (u == rsyncURL) = false := by simpa using hu
      simp [List.lookup_cons, this]
    · obtain ⟨n, h1, h2, h3, h4⟩ := C34_success W _ _ _ _ _ hx
      rw [hpath] at h1
      refine ⟨n, h1, s'.serial, by simp [h3], ?_⟩
      rcases h4 with h4 | ⟨h4, h5, h6⟩
      · exact .inl h4
      · by_cases hl : ∃ q, info.lookup rsyncURL = some q
        · obtain ⟨⟨q1, q2⟩, hq⟩ := hl
          right
          simp only [newSys, hq] at h4 h5 h6
          exact ⟨q2, by rw [hq, ← h4, h3], h5, h6⟩
        · have hq : info.lookup rsyncURL = none := by
            cases hq : info.lookup rsyncURL with
            | none => rfl
            | some q => exact (hl ⟨q, hq⟩).elim
          -- without an entry the serial is 0 and the snapshot is taken
          left
          obtain ⟨_, g⟩ := fetch_spec W _ _ s' _ r true hx
          rcases g with ⟨⟨_, _, _, _, hb, _⟩, _⟩ | ⟨n', hn', g⟩
          · simp at hb
          simp only [List.length_nil, hpath] at hn'
          rw [h1] at hn'
          simp at hn'
          subst hn'
          rcases g with ⟨_, _, _, _, _, _, d4⟩ | ⟨hs, _⟩
          · obtain ⟨rfl, _⟩ := d4 rfl; rfl
          · exact (hs (.inl (by simp [newSys, hq]))).elim

example : (match Cache.fetchRRDP worldS osFine baseS (fun _ => some domS) pathS (tx "rsync://a/m") fsS
      [(tx "rsync://a/m", tx "S", 1)] with
    | .ok (_, i, b) => b && decide (i.lookup (tx "rsync://a/m") = some (tx "S", 3)) | _ => false) = true := by decide +kernel

/-! ## C35 — the mirror equals the server -/

/-- **C35, what holds.** Let the server be consistent with a history of contents, let all its URIs contain the bound
    domain and be kept in different files, and let the cache hold the content of the client's serial (needed only if
    deltas are applied). After a successful run the cache holds the content of the new serial: every URI has exactly the
    server's bytes. Missing: absence of what was withdrawn, see below. -/
theorem C35_content_partial (W : World) (os : OS) (base domain : Bytes) (content : Int → Bytes → Option Bytes)
    (s s' : Sys) (fs : FS) (r : R FS) (n : Notification)
    (hn : (W.getXML 0 s.path).bind W.parseRoot = some n) (hc : Consistent W content n)
    (hU : ∀ k u, content k u ≠ none → domain <:+: u)
    (hinj : ∀ u v, (∃ k, content k u ≠ none) → (∃ k, content k v ≠ none) → target base u = target base v → u = v)
    (hm : ¬ SnapshotNeeded s n → Mirrors base fs (content s.serial))
    (h : Rrdp.fetchRRDP W (callback os base domain) s ⟨fs, [], []⟩ = .ok (s', r, true)) :
    Mirrors base r.st (content s'.serial) := by
  by_cases hs : SnapshotNeeded s n
  · obtain ⟨_, hex, h3⟩ := C33_snapshot W _ s s' fs r true n h hn hs
    obtain ⟨hok, d, node, h4, h5, h6⟩ := h3 rfl
    obtain ⟨pub, h7, h8⟩ := hc.snapshot 1 d h4
    rw [h5] at h7
    simp at h7
    subst h7
    have hser : s'.serial = n.serial := by
      obtain ⟨_, g⟩ := fetch_spec W _ s s' _ r true h
      rcases g with ⟨⟨_, _, _, _, hb, _⟩, _⟩ | ⟨n', hn', g⟩
      · simp at hb
      simp only [List.length_nil] at hn'
      rw [hn] at hn'
      simp at hn'
      subst hn'
      rcases g with ⟨_, _, _, _, _, _, d4⟩ | ⟨hs', _⟩
      · rw [(d4 rfl).1]
      · exact (hs' hs).elim
    rw [hser]
    refine mirror_node (c := fun _ => none) (U := fun u => ∃ k, content k u ≠ none) hex h6 ?_ hinj
      (fun u hu => ⟨⟨_, hu⟩, hU _ u hu⟩) (by simp) h8.once (by simp) ?_ ?_
    · intro x hx hf; rw [hok x hx] at hf; simp at hf
    · intro i hi
      cases hd : decodeBase64 i.value with
      | some d => exact (h8.exact' i.uri d).mpr ⟨i, hi, rfl, hd⟩
      | none =>
        -- the run would have failed
        exfalso
        unfold nodeCalls at h6
        split at h6
        · rename_i a b ha hb
          obtain ⟨p1, p2, rfl⟩ := List.append_of_mem hi
          obtain ⟨_, d', _, _, g2, _⟩ := callsOf_split ha
          rw [hd] at g2; simp at g2
        · simp at h6
    · intro u d hu hp
      obtain ⟨i, hi, hiu, _⟩ := (h8.exact' u d).mp hu
      exact (hp i hi hiu).elim
  · obtain ⟨es, _, h2, h3, _, h5⟩ := C33_deltas W _ s s' fs r true n h hn hs
    obtain ⟨h6, h7, h8⟩ := h5 rfl
    have hser : s'.serial = s.serial + ((n.serial - s.serial).toNat : Int) := by
      obtain ⟨_, g⟩ := fetch_spec W _ s s' _ r true h
      rcases g with ⟨⟨_, _, _, _, hb, _⟩, _⟩ | ⟨n', hn', g⟩
      · simp at hb
      simp only [List.length_nil] at hn'
      rw [hn] at hn'
      simp at hn'
      subst hn'
      rcases g with ⟨hs', _⟩ | ⟨_, es, done, _, _, _, _, _, _, d7, _⟩
      · exact (hs hs').elim
      · rw [(d7 rfl).1]
    rw [hser, ← h6]
    exact mirror_deltas hc hU hinj es s.serial 1 fs r.st r.calls h2 h7 h3 h8 (hm hs)

/-- The concrete server is consistent. -/
theorem consistentS : Consistent worldS contentS noteS := by
  have lk : ∀ (u : Bytes), ([(uX, ([2] : Bytes))].lookup u = some [2] ↔ u = uX) := by
    intro u
    simp only [List.lookup_cons, List.lookup_nil]
    by_cases h : u = uX
    · simp [h]
    · have : (u == uX) = false := by simpa using h
      simp [this, h]
  constructor
  · intro k d hd
    have h3 : worldS.getXML k noteS.snapshot.uri = some (tx "s3") := by
      show (if tx "s3" = pathS then some (tx "n") else some (tx "s3")) = some (tx "s3"); decide +kernel
    rw [h3] at hd
    simp at hd
    subst hd
    refine ⟨[⟨uX, tx "Ag=="⟩], by decide +kernel, ⟨by simp, ?_⟩⟩
    intro u d
    have hde : decodeBase64 (tx "Ag==") = some [2] := by decide +kernel
    have : contentS noteS.serial u = [(uX, ([2] : Bytes))].lookup u := rfl
    rw [this]
    simp only [List.mem_singleton, exists_eq_left, hde, Option.some.injEq]
    constructor
    · intro h
      simp only [List.lookup_cons, List.lookup_nil] at h
      split at h
      · rename_i he; simp at he h; exact ⟨he.symm, h⟩
      · simp at h
    · rintro ⟨rfl, rfl⟩; exact (lk uX).mpr rfl
  · intro e he k d hd
    have hx : uX ≠ uY := by decide +kernel
    simp only [noteS, List.mem_cons, List.not_mem_nil, or_false] at he
    rcases he with rfl | rfl | rfl
    · have h3 : worldS.getXML k (tx "d3") = some (tx "d3") := by
        show (if tx "d3" = pathS then some (tx "n") else some (tx "d3")) = some (tx "d3"); decide +kernel
      rw [h3] at hd
      simp at hd
      subst hd
      refine ⟨[], [⟨uY, []⟩], by decide +kernel, ⟨by simp, by simp, by simp, ?_, ?_⟩⟩
      · intro i hi; simp at hi; subst hi; exact ⟨by decide +kernel, by decide +kernel⟩
      · intro u _ hu
        have hu' : u ≠ uY := fun e => hu ⟨uY, []⟩ (by simp) e.symm
        have hb : (u == uY) = false := by simpa using hu'
        show [(uX, ([2] : Bytes))].lookup u = [(uX, ([2] : Bytes)), (uY, [3])].lookup u
        simp [List.lookup_cons, hb]
    · have h3 : worldS.getXML k (tx "d2") = some (tx "d2") := by
        show (if tx "d2" = pathS then some (tx "n") else some (tx "d2")) = some (tx "d2"); decide +kernel
      rw [h3] at hd
      simp at hd
      subst hd
      refine ⟨[⟨uX, tx "Ag =="⟩, ⟨uY, tx "Aw==\n"⟩], [], by decide +kernel, ⟨by simp [hx], by simp, ?_, by simp, ?_⟩⟩
      · intro i hi
        simp at hi
        rcases hi with rfl | rfl <;> decide +kernel
      · intro u hu _
        have h1 : u ≠ uX := fun e => hu ⟨uX, tx "Ag =="⟩ (by simp) e.symm
        have h2 : u ≠ uY := fun e => hu ⟨uY, tx "Aw==\n"⟩ (by simp) e.symm
        have b1 : (u == uX) = false := by simpa using h1
        have b2 : (u == uY) = false := by simpa using h2
        show [(uX, ([2] : Bytes)), (uY, [3])].lookup u = [(uX, ([1] : Bytes))].lookup u
        simp [List.lookup_cons, b1, b2]
    · have h3 : worldS.getXML k (tx "d1") = some (tx "d1") := by
        show (if tx "d1" = pathS then some (tx "n") else some (tx "d1")) = some (tx "d1"); decide +kernel
      rw [h3] at hd
      simp at hd
      subst hd
      refine ⟨[⟨uX, tx "AQ=="⟩], [], by decide +kernel, ⟨by simp, by simp, ?_, by simp, ?_⟩⟩
      · intro i hi; simp at hi; subst hi; decide +kernel
      · intro u hu _
        have h1 : u ≠ uX := fun e => hu ⟨uX, tx "AQ=="⟩ (by simp) e.symm
        have b1 : (u == uX) = false := by simpa using h1
        show [(uX, ([1] : Bytes))].lookup u = none
        simp [List.lookup_cons, b1]

theorem contentS_uris {k : Int} {u : Bytes} (h : contentS k u ≠ none) : u = uX ∨ u = uY := by
  unfold contentS at h
  have one : ∀ (x v : Bytes) (l : List (Bytes × Bytes)), ((x, v) :: l).lookup u ≠ none → u = x ∨ l.lookup u ≠ none := by
    intro x v l hl
    by_cases hx : u = x
    · exact .inl hx
    · have : (u == x) = false := by simpa using hx
      simp only [List.lookup_cons, this] at hl
      exact .inr hl
  split at h
  · rcases one _ _ _ h with h | h
    · exact .inl h
    · simp at h
  · split at h
    · rcases one _ _ _ h with h | h
      · exact .inl h
      · rcases one _ _ _ h with h | h
        · exact .inr h
        · simp at h
    · split at h
      · rcases one _ _ _ h with h | h
        · exact .inl h
        · simp at h
      · exact (h rfl).elim

/-- All hypotheses of `C35_content_partial` hold of the concrete server and client. -/
example : (worldS.getXML 0 sysS.path).bind worldS.parseRoot = some noteS ∧ Consistent worldS contentS noteS ∧
    (∀ k u, contentS k u ≠ none → domS <:+: u) ∧
    (∀ u v, (∃ k, contentS k u ≠ none) → (∃ k, contentS k v ≠ none) → target baseS u = target baseS v → u = v) ∧
    Mirrors baseS fsS (contentS sysS.serial) := by
  refine ⟨by decide +kernel, consistentS, ?_, ?_, ?_⟩
  · intro k u h
    rcases contentS_uris h with rfl | rfl <;> decide +kernel
  · rintro u v ⟨k, hu⟩ ⟨k', hv⟩ ht
    have hne : target baseS uX ≠ target baseS uY := by decide +kernel
    rcases contentS_uris hu with rfl | rfl <;> rcases contentS_uris hv with rfl | rfl
    · rfl
    · exact (hne ht).elim
    · exact (hne ht.symm).elim
    · rfl
  · intro u d hu
    have h1 : [(uX, ([1] : Bytes))].lookup u = some d := hu
    simp only [List.lookup_cons, List.lookup_nil] at h1
    split at h1
    · rename_i he
      simp at he h1
      subst he h1
      decide +kernel
    · simp at h1

/-- **C35 is violated.** At serial 3 the consistent server has withdrawn `y`, the run succeeds and reaches serial 3, but
    the file is still there (with no content). -/
theorem C35_violated_withdraw : ∃ s' r, runS = .ok (s', r, true) ∧ s'.serial = 3 ∧ contentS 3 uY = none ∧
    r.st.file (target baseS uY) = some [] := by
  have h : seen runS = some (⟨pathS, tx "S", 3⟩, [pathS, tx "d2", tx "d3"], true, [some [2], some []]) := by decide +kernel
  generalize hx : runS = x at h
  match x, h with
  | .ok (s', r, b), h =>
    simp only [seen, Option.some.injEq, Prod.mk.injEq] at h
    obtain ⟨rfl, _, rfl, h4⟩ := h
    simp only [List.cons.injEq] at h4
    exact ⟨_, r, rfl, rfl, by decide +kernel, h4.2.1⟩

/-- **C35 is violated.** Nothing is ever removed: a file that the cache holds is there after any run, also after a
    snapshot that does not list it. -/
theorem C35_violated_nothing_removed (W : World) (os : OS) (base domain : Bytes) (s s' : Sys) (fs : FS) (r : R FS) (b : Bool)
    (h : Rrdp.fetchRRDP W (callback os base domain) s ⟨fs, [], []⟩ = .ok (s', r, b)) (p : P) (hp : fs.file p ≠ none) :
    r.st.file p ≠ none := by
  have hex := fetch_exec h
  generalize r.calls = l at hex
  generalize r.st = st at hex
  clear h
  induction hex with
  | nil => exact hp
  | cons s s1 s2 c ok l hc _ ih =>
    apply ih
    unfold callback at hc
    split at hc
    · obtain ⟨_, fs1, h1, h2⟩ := write_spec hc
      have hf : ∀ p, fs1.file p = s.file p := fun p => by simp [FS.file, (file_mkdir h1).1]
      rcases h2 with ⟨_, rfl, _⟩ | ⟨_, h2⟩
      · rw [hf]; exact hp
      · unfold FS.writeFile at h2
        split at h2
        · simp at h2; rw [← h2.1, hf]; exact hp
        · split at h2 <;> simp at h2 <;> rw [← h2.1]
          · rw [file_set]; split
            · simp
            · rw [hf]; exact hp
          · rw [hf]; exact hp
          · rw [file_set]; split
            · simp
            · rw [hf]; exact hp
    · simp at hc; rw [← hc.1]; exact hp

example : fsS.file (clean (tx "/cache/a/m/x.roa")) ≠ none := by decide +kernel

/-! ## C36 — crash and retry converge -/

/-- **C36, failed run.** A run that failed at any point, repeated against the same server, gives the session, the serial
    and the files that a run without the failure gives, provided that no call of the callback failed in the two
    complete runs. Missing: failed withdrawals, which the code ignores. -/
theorem C36_retry_partial (W0 W1 W2 : World) (srv : Bytes → Option Bytes) (h0 : Answers W0 srv) (h1 : Answers W1 srv)
    (h2 : Answers W2 srv) (hr1 : W1.parseRoot = W0.parseRoot) (hr2 : W2.parseRoot = W0.parseRoot)
    (hp1 : W1.parseNode = W0.parseNode) (hp2 : W2.parseNode = W0.parseNode) (os0 os1 os2 : OS) (base domain : Bytes)
    (s s0 s1 s2 : Sys) (fs : FS) (r0 r1 r2 : R FS)
    (run0 : Rrdp.fetchRRDP W0 (callback os0 base domain) s ⟨fs, [], []⟩ = .ok (s0, r0, true))
    (run1 : Rrdp.fetchRRDP W1 (callback os1 base domain) s ⟨fs, [], []⟩ = .ok (s1, r1, false))
    (run2 : Rrdp.fetchRRDP W2 (callback os2 base domain) s1 ⟨r1.st, [], []⟩ = .ok (s2, r2, true))
    (ok0 : ∀ x ∈ r0.calls, x.2 = true) (ok2 : ∀ x ∈ r2.calls, x.2 = true) :
    s2 = s0 ∧ ∀ p, r2.st.file p = r0.st.file p := by
  have e1 := C34_failure W1 _ s s1 fs r1 run1
  subst e1
  apply runs_same h0 h2 hr2 hp2 run0 run2 ok0 ok2
  intro p hp
  obtain ⟨c, c1, c2, c3⟩ := exec_changed (fetch_exec run1) p hp
  obtain ⟨pre, _⟩ := calls_prefix h1 h0 hr1 hp1 run1 run0
  have : c.1 ∈ r0.calls.map (·.1) := pre.subset (List.mem_map_of_mem c1)
  obtain ⟨c', c4, c5⟩ := List.mem_map.mp this
  exact ⟨c', c4, by rw [c5]; exact c2, by rw [c5]; exact c3⟩

/-- **C36, crash.** The same if the process was killed at any call of a run, with any content in the file that was being
    written, and restarts with the state it had kept. -/
theorem C36_crash_partial (W0 W1 W2 : World) (srv : Bytes → Option Bytes) (h0 : Answers W0 srv) (h1 : Answers W1 srv)
    (h2 : Answers W2 srv) (hr1 : W1.parseRoot = W0.parseRoot) (hr2 : W2.parseRoot = W0.parseRoot)
    (hp1 : W1.parseNode = W0.parseNode) (hp2 : W2.parseNode = W0.parseNode) (os0 os1 os2 : OS) (base domain : Bytes)
    (s s0 s1 s2 : Sys) (fs fs' : FS) (b : Bool) (r0 r1 r2 : R FS)
    (run0 : Rrdp.fetchRRDP W0 (callback os0 base domain) s ⟨fs, [], []⟩ = .ok (s0, r0, true))
    (run1 : Rrdp.fetchRRDP W1 (callback os1 base domain) s ⟨fs, [], []⟩ = .ok (s1, r1, b))
    (killed : KilledAt os1 base domain fs r1.calls fs')
    (run2 : Rrdp.fetchRRDP W2 (callback os2 base domain) s ⟨fs', [], []⟩ = .ok (s2, r2, true))
    (ok0 : ∀ x ∈ r0.calls, x.2 = true) (ok2 : ∀ x ∈ r2.calls, x.2 = true) :
    s2 = s0 ∧ ∀ p, r2.st.file p = r0.st.file p := by
  apply runs_same h0 h2 hr2 hp2 run0 run2 ok0 ok2
  intro p hp
  obtain ⟨pre, c, post, fs1, k1, k2, k3, k4⟩ := killed
  have hmem : ∃ x ∈ r1.calls, domain <:+: x.1.path ∧ target base x.1.path = p := by
    by_cases hq : fs1.file p = fs.file p
    · refine ⟨c, by rw [k1]; simp, ?_, ?_⟩
      · by_cases hd : domain <:+: c.1.path
        · exact hd
        · rw [k4 hd] at hp; exact (hp hq).elim
      · by_cases hd : p = target base c.1.path
        · exact hd.symm
        · rw [k3 p hd] at hp; exact (hp hq).elim
    · obtain ⟨x, x1, x2⟩ := exec_changed k2 p hq
      exact ⟨x, by rw [k1]; simp [x1], x2⟩
  obtain ⟨c, c1, c2, c3⟩ := hmem
  obtain ⟨pre, _⟩ := calls_prefix h1 h0 hr1 hp1 run1 run0
  have : c.1 ∈ r0.calls.map (·.1) := pre.subset (List.mem_map_of_mem c1)
  obtain ⟨c', c4, c5⟩ := List.mem_map.mp this
  exact ⟨c', c4, by rw [c5]; exact c2, by rw [c5]; exact c3⟩

/-- **C36, lost state.** If the kept state is lost (the file was being written when the process was killed, so that it
    can not be read), the next successful run brings any cache whatever to the server's content. -/
theorem C36_lost_state_partial (W : World) (os : OS) (base domain : Bytes) (content : Int → Bytes → Option Bytes)
    (path : Bytes) (s' : Sys) (fs : FS) (r : R FS) (n : Notification)
    (hn : (W.getXML 0 path).bind W.parseRoot = some n) (hc : Consistent W content n)
    (hU : ∀ k u, content k u ≠ none → domain <:+: u)
    (hinj : ∀ u v, (∃ k, content k u ≠ none) → (∃ k, content k v ≠ none) → target base u = target base v → u = v)
    (h : Rrdp.fetchRRDP W (callback os base domain) (newSys [] path []) ⟨fs, [], []⟩ = .ok (s', r, true)) :
    s'.serial = n.serial ∧ Mirrors base r.st (content n.serial) := by
  have hs : SnapshotNeeded (newSys [] path []) n := .inl rfl
  have hm := C35_content_partial W os base domain content _ s' fs r n hn hc hU hinj (fun h => (h hs).elim) h
  have hser : s'.serial = n.serial := by
    obtain ⟨_, g⟩ := fetch_spec W _ _ s' _ r true h
    rcases g with ⟨⟨_, _, _, _, hb, _⟩, _⟩ | ⟨n', hn', g⟩
    · simp at hb
    simp only [List.length_nil] at hn'
    rw [show (newSys [] path []).path = path from rfl, hn] at hn'
    simp at hn'
    subst hn'
    rcases g with ⟨_, _, _, _, _, _, d4⟩ | ⟨hs', _⟩
    · rw [(d4 rfl).1]
    · exact (hs' hs).elim
  rw [hser] at hm
  exact ⟨hser, hm⟩

/-- The third download (delta 3) fails. -/
def worldS1 : World := { worldS with getXML := fun k u => if k = 2 then none else worldS.getXML k u }

/-- A failed run and its repetition. -/
def retryS : Go (Sys × R FS × Bool) :=
  match Rrdp.fetchRRDP worldS1 (callback osFine baseS domS) sysS ⟨fsS, [], []⟩ with
  | .ok (s, r, false) => Rrdp.fetchRRDP worldS (callback osFine baseS domS) s ⟨r.st, [], []⟩
  | _ => .panic

def allOk (x : Go (Sys × R FS × Bool)) : Bool :=
  match x with
  | .ok (_, r, b) => b && r.calls.all (·.2)
  | _ => false

example : seen retryS = seen runS := by decide +kernel
example : allOk runS = true ∧ allOk retryS = true := ⟨by decide +kernel, by decide +kernel⟩
example : Answers worldS (worldS.getXML 0) ∧ Answers worldS1 (worldS.getXML 0) := by
  refine ⟨fun k u => .inr rfl, fun k u => ?_⟩
  by_cases h : k = 2
  · left; simp [worldS1, h]
  · right; simp only [worldS1, h, if_false]; rfl
example : seen (Rrdp.fetchRRDP worldS (callback osFine baseS domS) (newSys [] pathS []) ⟨⟨[], []⟩, [], []⟩) =
    some (⟨pathS, tx "S", 3⟩, [pathS, tx "s3"], true, [some [2], none]) := by decide +kernel

/-- A process killed while it wrote the file of `y` for the first time, with one wrong byte in it. -/
def fsTorn : FS := ⟨fsS.dirs, [(target baseS uX, [2]), (target baseS uY, [99])] ++ fsS.files⟩

example : KilledAt osFine baseS domS fsS
    [(⟨pathS, tx "s3", uX, [2], false, false, 2⟩, true), (⟨pathS, tx "s3", uY, [3], false, false, 2⟩, true),
      (⟨pathS, tx "s3", uY, [], true, false, 3⟩, true)] fsTorn := by
  refine ⟨[(⟨pathS, tx "s3", uX, [2], false, false, 2⟩, true)], (⟨pathS, tx "s3", uY, [3], false, false, 2⟩, true), _,
    ⟨ancestors (clean (tx "/cache/a/m")) ++ fsS.dirs, (target baseS uX, [2]) :: fsS.files⟩, rfl,
    .cons _ _ _ _ _ _ (by decide +kernel) (.nil _), ?_, ?_⟩
  · intro p hp
    have : (p == target baseS uY) = false := by simpa using hp
    simp [FS.file, fsTorn, List.lookup_cons, this]
  · intro h; exact (h (by decide +kernel)).elim
example : (match runS with | .ok (_, r, _) => r.calls | _ => []) =
    [(⟨pathS, tx "s3", uX, [2], false, false, 2⟩, true), (⟨pathS, tx "s3", uY, [3], false, false, 2⟩, true),
      (⟨pathS, tx "s3", uY, [], true, false, 3⟩, true)] := by decide +kernel
example : seen (Rrdp.fetchRRDP worldS (callback osFine baseS domS) sysS ⟨fsTorn, [], []⟩) = seen runS := by decide +kernel

/-- An operating system that refuses to empty files. -/
def osFull : OS := ⟨fun _ _ => true, fun _ _ d => if d = [] then (false, none) else (true, none)⟩

/-- **C36 is violated for withdrawals.** The error of a withdrawal is ignored: the run on a full disk succeeds and
    reaches serial 3 like the other, but the files differ, and will not be repaired by later runs. -/
theorem C36_violated_withdraw_error :
    seen (Rrdp.fetchRRDP worldS (callback osFull baseS domS) sysS ⟨fsS, [], []⟩) =
      some (⟨pathS, tx "S", 3⟩, [pathS, tx "d2", tx "d3"], true, [some [2], some [3]]) ∧
    seen runS = some (⟨pathS, tx "S", 3⟩, [pathS, tx "d2", tx "d3"], true, [some [2], some []]) := ⟨by decide +kernel, by decide +kernel⟩

/-! ## C37 — content bound to the notification -/

/-- The notification with other hashes. -/
def rehash (f : Bytes → Bytes) (n : Notification) : Notification :=
  { n with snapshot := { n.snapshot with hash := f n.snapshot.hash }
           deltas := n.deltas.map (fun e => { e with hash := f e.hash }) }

theorem rehash_delta (f : Bytes → Bytes) (n : Notification) (k : Int) :
    (rehash f n).delta k = (n.delta k).map (fun e => { e with hash := f e.hash }) := by
  unfold Notification.delta rehash
  simp only [← List.map_reverse]
  rw [List.find?_map]
  rfl

theorem rehash_missing (f : Bytes → Bytes) (n : Notification) : ∀ (k : Nat) (a : Int),
    missingFrom (rehash f n) k a = missingFrom n k a
  | 0, _ => rfl
  | k + 1, a => by
    unfold missingFrom
    rw [rehash_delta, rehash_missing f n k (a + 1)]
    cases n.delta a <;> rfl

theorem rehash_deltas (f : Bytes → Bytes) (W W' : World) (cb : Callback σ) (s : Sys) (n : Notification)
    (hg : W'.getXML = W.getXML) (hp : W'.parseNode = W.parseNode) : ∀ (k : Nat) (a : Int) (r : R σ),
    doDeltas W' cb s (rehash f n) k a r = doDeltas W cb s n k a r
  | 0, _, _ => rfl
  | k + 1, a, r => by
    unfold doDeltas
    rw [rehash_delta]
    cases n.delta a with
    | none => rfl
    | some e =>
      have : doDelta W' cb s (rehash f n) { e with hash := f e.hash } r = doDelta W cb s n e r := by
        unfold doDelta download rehash
        simp only [hg, hp]
      simp only [Option.map_some, this]
      congr 1
      funext x
      rw [rehash_deltas f W W' cb s n hg hp k (a + 1) x.1]

/-- **C37 is violated.** The hashes of the notification have no influence whatever: with any other hashes the client
    does exactly the same. -/
theorem C37_violated_hash_ignored (f : Bytes → Bytes) (W : World) (cb : Callback σ) (s : Sys) (r : R σ) :
    Rrdp.fetchRRDP { W with parseRoot := fun d => (W.parseRoot d).map (rehash f) } cb s r = Rrdp.fetchRRDP W cb s r := by
  unfold Rrdp.fetchRRDP
  simp only [download]
  cases hd : W.getXML r.gets.length s.path with
  | none => rfl
  | some d =>
    simp only [Option.bind_some]
    cases hn : W.parseRoot d with
    | none => rfl
    | some n =>
      simp only [Option.map_some]
      have h1 : needSnapshot s (rehash f n) = needSnapshot s n := by
        unfold needSnapshot
        rw [show (rehash f n).serial = n.serial from rfl, rehash_missing]
        rfl
      rw [h1]
      rw [show (rehash f n).serial = n.serial from rfl, rehash_deltas f W { W with parseRoot := fun d => (W.parseRoot d).map (rehash f) } cb s n rfl rfl]
      rfl

/-- **C37 is violated, witness.** For every hash function there is a run that applies a delta whose content does not have
    the listed hash. -/
theorem C37_violated_witness (H : Bytes → Bytes) : ∃ (W : World) (n : Notification) (e : El) (d : Bytes),
    (W.getXML 0 pathS).bind W.parseRoot = some n ∧ Listed n 2 e ∧ W.getXML 1 e.uri = some d ∧ H d ≠ e.hash ∧
    seen (Rrdp.fetchRRDP W (callback osFine baseS domS) sysS ⟨fsS, [], []⟩) =
      some (⟨pathS, tx "S", 3⟩, [pathS, tx "d2", tx "d3"], true, [some [2], some []]) := by
  let f : Bytes → Bytes := fun _ => 0 :: H (tx "d2")
  refine ⟨{ worldS with parseRoot := fun d => (worldS.parseRoot d).map (rehash f) }, rehash f noteS, ⟨2, tx "d2", f []⟩, tx "d2",
    ?_, ?_, ?_, ?_, ?_⟩
  · have : worldS.getXML 0 pathS = some (tx "n") := by decide +kernel
    have h2 : worldS.parseRoot (tx "n") = some noteS := by decide +kernel
    show (worldS.getXML 0 pathS).bind _ = _
    rw [this]
    simp only [Option.bind_some, h2, Option.map_some]
  · exact ⟨[⟨3, tx "d3", f []⟩], [⟨1, tx "d1", f []⟩], rfl, rfl, by simp⟩
  · show worldS.getXML 1 (tx "d2") = _; decide +kernel
  · intro h
    have := congrArg List.length h
    simp [f] at this
  · rw [C37_violated_hash_ignored]; decide +kernel

/-! ## C65 — rsync URL decomposition -/

/-- **C65, file path.** Exactly the rsync URLs are taken apart; the path is the URL without the scheme. -/
theorem C65_file_path (url p : Bytes) : extractFilePath url = .ok p ↔ url = rsyncScheme ++ p := by
  unfold extractFilePath isRsyncURL
  split
  · rename_i h
    rw [trim_rsync h]
    obtain ⟨t, rfl⟩ := (hasPrefix_iff _ _).mp h
    simp [rsyncScheme, asc]
  · rename_i h
    simp only [reduceCtorEq, false_iff]
    intro e
    exact h ((hasPrefix_iff _ _).mpr ⟨p, e.symm⟩)

/-- **C65, folders.** The folder path of `rsync://f/l`, with no slash in `l`, is `f`; it is empty if there is no slash. -/
theorem C65_folders (f l : Bytes) (hl : (47 : UInt8) ∉ l) :
    extractFolders (rsyncScheme ++ f ++ 47 :: l) = .ok f ∧ extractFolders (rsyncScheme ++ l) = .ok [] := by
  have h1 : ∀ x : Bytes, isRsyncURL (rsyncScheme ++ x) = true := fun x => (hasPrefix_iff _ _).mpr ⟨x, rfl⟩
  have h2 : ∀ x : Bytes, trimPrefix (rsyncScheme ++ x) rsyncScheme = x := by
    intro x; rw [trim_rsync (h1 x)]; simp [rsyncScheme, asc]
  constructor
  · unfold extractFolders
    rw [List.append_assoc, if_pos (h1 _), h2, splitSlash_append, splitSlash_plain l hl, List.dropLast_concat, join_split]
  · unfold extractFolders
    rw [if_pos (h1 _), h2, splitSlash_plain l hl]
    rfl

/-- **C65, folders.** Other URLs are rejected. -/
theorem C65_folders_rejects (url : Bytes) (h : ¬ rsyncScheme <+: url) : ∃ e, extractFolders url = .err e := by
  refine ⟨"not an rsync URL", ?_⟩
  unfold extractFolders
  rw [if_neg]
  intro hx
  exact h ((hasPrefix_iff _ _).mp hx)

/-- **C65, module.** The module of `rsync://host/module` and of anything below it is `rsync://host/module`, the domain is
    `rsync://host/`; and this is so for every rsync URL that is accepted. Missing: other URLs should be rejected. -/
theorem C65_module_partial (url m d : Bytes) (hs : rsyncScheme <+: url) :
    extractDomainModule url = .ok (m, d) ↔ ∃ host mod rest, (47 : UInt8) ∉ host ∧ (47 : UInt8) ∉ mod ∧
      (rest = [] ∨ rest.head? = some 47) ∧ url = rsyncScheme ++ host ++ 47 :: mod ++ rest ∧
      m = rsyncScheme ++ host ++ 47 :: mod ∧ d = rsyncScheme ++ host ++ [47] := by
  obtain ⟨x, rfl⟩ := hs
  have hdrop : (rsyncScheme ++ x).drop 8 = x := by simp [rsyncScheme, asc]
  unfold extractDomainModule
  rw [hdrop]
  constructor
  · intro h
    split at h
    · split at h
      · rename_i a b t hsp
        simp only [Go.ok.injEq, Prod.mk.injEq] at h
        have hns := split_no_slash x
        rw [hsp] at hns
        refine ⟨a, b, joinSlash ([] :: t) , hns a (by simp), hns b (by simp), ?_, ?_, h.1.symm, h.2.symm⟩
        · cases t with
          | nil => left; rfl
          | cons y t => right; rfl
        · have := join_split x
          rw [hsp] at this
          rw [← this]
          cases t with
          | nil => simp [joinSlash, Tal.join]
          | cons y t => simp [joinSlash, Tal.join]
      · simp at h
    · simp at h
  · rintro ⟨host, mod, rest, h1, h2, h3, h4, rfl, rfl⟩
    have hx : x = host ++ 47 :: (mod ++ rest) := by
      have h4' : rsyncScheme ++ x = rsyncScheme ++ (host ++ 47 :: (mod ++ rest)) := by simpa using h4
      exact List.append_cancel_left h4'
    have hlen : (rsyncScheme ++ x).length > 8 := by
      rw [hx]; simp [rsyncScheme, asc]; omega
    rw [if_pos hlen, hx, splitSlash_append, splitSlash_plain host h1]
    rcases h3 with rfl | h3
    · rw [List.append_nil, splitSlash_plain mod h2]; rfl
    · obtain ⟨y, rfl⟩ : ∃ y, rest = 47 :: y := by
        cases rest with
        | nil => simp at h3
        | cons z y => simp at h3; exact ⟨y, by rw [h3]⟩
      rw [splitSlash_append, splitSlash_plain mod h2]
      rfl

/-- **C65, module.** An rsync URL without a slash after the host is rejected. -/
theorem C65_module_rejects (host : Bytes) (h : (47 : UInt8) ∉ host) : ∃ e, extractDomainModule (rsyncScheme ++ host) = .err e := by
  have hdrop : (rsyncScheme ++ host).drop 8 = host := by simp [rsyncScheme, asc]
  unfold extractDomainModule
  rw [hdrop, splitSlash_plain host h]
  split
  · exact ⟨_, rfl⟩
  · exact ⟨_, rfl⟩

example : extractDomainModule (tx "rsync://h/m/a/b.cer") = .ok (tx "rsync://h/m", tx "rsync://h/") := by decide +kernel
example : extractFolders (tx "rsync://h/m/a/b.cer") = .ok (tx "h/m/a") := by decide +kernel

/-- **C65 is violated.** A URL of another scheme is given a module: that of an rsync URL with what follows the first
    eight characters. -/
theorem C65_violated_scheme :
    ¬ rsyncScheme <+: tx "https://h/m/x" ∧ extractDomainModule (tx "https://h/m/x") = .ok (tx "rsync://h/m", tx "rsync://h/") ∧
    ¬ rsyncScheme <+: tx "file:///etc/x" ∧ extractDomainModule (tx "file:///etc/x") = .ok (tx "rsync://etc/x", tx "rsync://etc/") := by
  decide +kernel

/-- **C65 is violated.** Empty hosts and modules are accepted. -/
theorem C65_violated_empty : extractDomainModule (tx "rsync:////") = .ok (tx "rsync:///", tx "rsync:///") := by decide +kernel

end Verif.Props
