import Verif.Lemmas.Local
import Verif.Props.Sync
import Verif.Lemmas.Der
/-
  Property theorems for rsync, for the cache as the validator reads it and for trust anchor certificates:
  C71, C72, C79 - C81.
-/
set_option autoImplicit false

namespace Verif.Props
open Path Cache SyncSpec LocalSpec
open Tal (hasPrefix rsyncScheme)
open Pki (PKIFile FType)

/-- A tool that does nothing. -/
def noTool : FS → Bytes → P → FS := fun fs _ _ => fs

theorem noTool_writes : WritesInside noTool := fun _ _ _ _ h => (h rfl).elim
theorem noTool_keeps : KeepsDirs noTool := fun _ _ _ _ h => h

/-! ## C71 — rsync writes only in the directory of its module -/

/-- The module that is scheduled for a certificate's repository URI is `rsync://host/module`. -/
theorem C71_module_names (gn m d : Bytes) (h : extractDomainModule gn = .ok (m, d)) :
    ∃ host module, (47 : UInt8) ∉ host ∧ (47 : UInt8) ∉ module ∧ m = moduleURI host module ∧
      (gn.drop 8 = host ++ 47 :: module ∨ ∃ rest, gn.drop 8 = host ++ 47 :: module ++ 47 :: rest) := by
  unfold extractDomainModule at h
  split at h
  · split at h
    · rename_i a b l hs
      simp at h
      have hj := join_split (gn.drop 8)
      refine ⟨a, b, split_no_slash _ a (by rw [hs]; simp), split_no_slash _ b (by rw [hs]; simp), ?_, ?_⟩
      · simp [moduleURI, ← h.1]
      · rw [hs] at hj
        cases l with
        | nil => left; rw [← hj]; simp [joinSlash, Tal.join]
        | cons c l => right; exact ⟨joinSlash (c :: l), by rw [← hj]; simp [joinSlash, Tal.join]⟩
    · simp at h
  · simp at h

/-- **C71, the directory (partial: for plain names).** rsync is told to write to `base/host/module`. Missing: hosts
    and modules that are `..`, see the violations. -/
theorem C71_directory_partial (base host module : Bytes) (hb : base ≠ []) (hh : PlainName host) (hm : PlainName module) :
    rsyncDir base (moduleURI host module) = .ok (moduleDir base host module) := by
  rw [module_dir hb hh.noSlash hm.noSlash hh.notUp hm.notUp]
  have : keep [host, module] = [host, module] := by
    simp [keep, hh.notEmpty, hm.notEmpty, dot, hh.notDot, hm.notDot]
  rw [this]; rfl

/-- **C71, inside the cache (partial: host and module are not `..`).** -/
theorem C71_inside_partial (base host module : Bytes) (hb : base ≠ []) (h1 : (47 : UInt8) ∉ host) (h2 : (47 : UInt8) ∉ module)
    (h3 : host ≠ [46, 46]) (h4 : module ≠ [46, 46]) :
    ∃ p, rsyncDir base (moduleURI host module) = .ok p ∧ Under (clean base) p := by
  refine ⟨_, module_dir hb h1 h2 h3 h4, rfl, _, rfl, ?_⟩
  exact keep_no_up (by intro c hc; simp at hc; rcases hc with rfl | rfl <;> assumption)

/-- **C71, modules do not touch each other (partial: for plain names).** The directories of two modules are the same or neither
    lies in the other. -/
theorem C71_modules_apart_partial (base h1 m1 h2 m2 : Bytes) (q : P)
    (b1 : Below (moduleDir base h1 m1) q) (b2 : Below (moduleDir base h2 m2) q) : h1 = h2 ∧ m1 = m2 := by
  obtain ⟨_, r1, e1⟩ := b1
  obtain ⟨_, r2, e2⟩ := b2
  have e := e1.trans e2.symm
  simp [moduleDir] at e
  exact ⟨e.1, e.2.1⟩

/-- **C71, files (partial: for plain names).** If rsync itself writes only into the directory it is given, then a run for one
    module changes no file outside `base/host/module`, in particular none of another module. -/
theorem C71_files_partial (os : OS) (tool : FS → Bytes → P → FS) (hw : WritesInside tool) (base host module : Bytes)
    (hb : base ≠ []) (hh : PlainName host) (hm : PlainName module) (fs fs' : FS) (b : Bool)
    (h : fetchRsync os tool base fs (moduleURI host module) = .ok (fs', b)) (q : P) (hq : fs'.file q ≠ fs.file q) :
    Below (moduleDir base host module) q := by
  unfold fetchRsync at h
  rw [C71_directory_partial base host module hb hh hm] at h
  simp only at h
  split at h
  · simp at h; rw [h.1] at hq; exact (hq rfl).elim
  · rename_i fs1 h1
    simp at h
    apply hw fs1 (moduleURI host module)
    rw [h.1]
    have : fs1.file q = fs.file q := by simp [FS.file, (file_mkdir h1).1]
    rw [this]; exact hq

/-- **C71, no crash.** A module that was extracted from a certificate never ends the process. -/
theorem C71_no_crash (os : OS) (tool : FS → Bytes → P → FS) (base : Bytes) (fs : FS) (gn m d : Bytes)
    (h : extractDomainModule gn = .ok (m, d)) : ∃ fs' b, fetchRsync os tool base fs m = .ok (fs', b) := by
  obtain ⟨host, module, _, _, rfl, _⟩ := C71_module_names gn m d h
  have hp : hasPrefix (moduleURI host module) rsyncScheme = true := (hasPrefix_iff _ _).mpr ⟨host ++ 47 :: module, by simp [moduleURI]⟩
  unfold fetchRsync rsyncDir extractFilePath
  simp only [isRsyncURL, hp, if_true]
  split
  · exact ⟨_, _, rfl⟩
  · exact ⟨_, _, rfl⟩

/-- **C71, other schemes.** rsync is not started for a URI of another scheme: the process ends. -/
theorem C71_other_scheme_ends (os : OS) (tool : FS → Bytes → P → FS) (base : Bytes) (fs : FS) (uri : Bytes)
    (h : ¬ asc "rsync://".toList <+: uri) : fetchRsync os tool base fs uri = .panic := by
  have : hasPrefix uri rsyncScheme = false := by
    rw [Bool.eq_false_iff]
    intro h'
    obtain ⟨r, hr⟩ := (hasPrefix_iff _ _).mp h'
    exact h ⟨r, hr⟩
  simp [fetchRsync, rsyncDir, extractFilePath, isRsyncURL, this]

example : ¬ asc "rsync://".toList <+: tx "https://host/module" := by
  rintro ⟨r, h⟩
  have := congrArg List.head? h
  have e : List.head? (asc "rsync://".toList ++ r) = some 114 := rfl
  rw [e] at this
  exact absurd this (by decide +kernel)

/-- **C71 is violated: outside the cache.** The repository URI `rsync://../x/` of a valid certificate makes the program create
    a directory outside its cache and point rsync at it. -/
theorem C71_violated_outside : ∃ gn m d p, extractDomainModule gn = .ok (m, d) ∧ rsyncDir baseS m = .ok p ∧
    ¬ Under (clean baseS) p ∧ p = clean (tx "/x") :=
  ⟨tx "rsync://../x/y", tx "rsync://../x", tx "rsync://../", clean (tx "/x"), by decide +kernel, by decide +kernel, by
    rintro ⟨_, r, h, _⟩
    have : (clean (tx "/x")).comps.head? = (clean baseS).comps.head? := by
      rw [h]
      have : (clean baseS).comps = [tx "cache"] := by decide +kernel
      rw [this]; rfl
    exact absurd this (by decide +kernel), rfl⟩

/-- **C71 is violated: other hosts.** With the repository URI `rsync://evil/../` rsync writes to the cache itself, above the
    directories of all other hosts. -/
theorem C71_violated_other_hosts : ∃ gn m d p, extractDomainModule gn = .ok (m, d) ∧ rsyncDir baseS m = .ok p ∧
    ∀ host module, Below p (moduleDir baseS host module) :=
  ⟨tx "rsync://evil/../", tx "rsync://evil/..", tx "rsync://evil/", clean baseS, by decide +kernel, by decide +kernel,
    fun _ _ => ⟨rfl, List.prefix_append _ _⟩⟩

/-- The hypotheses can be met, and the run does something: the directory is made. -/
example : PlainName (tx "a") ∧ PlainName (tx "m") ∧ extractDomainModule (tx "rsync://a/m/x/y.cer") = .ok (moduleURI (tx "a") (tx "m"), tx "rsync://a/") ∧
    moduleDir baseS (tx "a") (tx "m") = clean (tx "/cache/a/m") ∧
    (match fetchRsync osFine (fun fs _ p => fs.set ⟨p.rooted, p.comps ++ [tx "f.cer"]⟩ [7]) baseS ⟨[], []⟩ (moduleURI (tx "a") (tx "m")) with
     | .ok (fs, b) => (fs.file (clean (tx "/cache/a/m/f.cer")), fs.isDir (clean (tx "/cache/a/m")), b)
     | _ => (none, false, false)) = (some [7], true, true) :=
  ⟨⟨by decide, by decide, by decide, by decide⟩, ⟨by decide, by decide, by decide, by decide⟩, by decide +kernel, by decide +kernel, by decide +kernel⟩

/-! ## C72 — what is stored for a URI is what the validator reads for it -/

/-- **C72, same file (partial: URIs with one scheme, a base directory).** The validator looks for a URI in the file that
    is written for it. -/
theorem C72_same_file_partial (base uri : Bytes) (hb : base ≠ []) (h : OneScheme uri) :
    clean (getLocalPath uri (rsyncMap base)) = target base uri := local_target hb h

/-- **C72, read back (partial: URIs with one scheme, a base directory).** After data has been stored for a URI, the validator reads
    exactly that data, and its hash. -/
theorem C72_read_back_partial (sha256 : Bytes → Bytes) (os : OS) (base : Bytes) (hb : base ≠ []) (fs fs' : FS) (url d own : Bytes)
    (repos : List Bytes) (h : writeRsyncFile os base fs url d = .ok (fs', true)) (hu : OneScheme url) :
    getFileConv sha256 fs' (rsyncMap base) repos url own false = .ok (.found ⟨own, d, sha256 d⟩) := by
  simp [getFileConv, fetchFile, write_read hb h hu]

/-- **C72, files of a manifest (partial: as above).** A file listed in a manifest is read from the file that was stored for the
    manifest's repository and the listed name; its hash is that of the stored data, its content the DER form. -/
theorem C72_manifest_file_partial (sha256 : Bytes → Bytes) (os : OS) (base : Bytes) (hb : base ≠ []) (fs fs' : FS) (d der : Bytes)
    (repos : List Bytes) (files : List PKIFile) (f mft : PKIFile) (i : Nat) (hp : f.parent = some i) (hi : files[i]? = some mft)
    (hm : mft.type = .mft) (hr : mft.repo.getLast? = some 47) (ht : f.type ≠ .tal) (hder : Ber.BER2DER d = .ok der)
    (h : writeRsyncFile os base fs (mft.repo ++ f.path) d = .ok (fs', true)) (hu : OneScheme (mft.repo ++ f.path)) :
    getFile sha256 fs' (rsyncMap base) repos files f = .ok (.found ⟨f.path, der, sha256 d⟩) := by
  have hc : f.computePath files = mft.repo ++ f.path := by
    simp [PKIFile.computePath, hp, hi, hm, hr]
  simp [getFile, hc, ht, getFileConv, fetchFile, write_read hb h hu, hder]

/-- **C72 is violated: a second scheme.** All occurrences of `rsync://` are replaced, so a file whose URI contains it twice is
    stored but never found. -/
theorem C72_violated_two_schemes : ∃ uri fs', writeRsyncFile osFine baseS ⟨[], []⟩ uri [1] = .ok (fs', true) ∧
    ∀ (sha256 : Bytes → Bytes) (repos : List Bytes), tx "rsync://a/m" ∉ repos →
      getFileConv sha256 fs' (rsyncMap baseS) repos uri uri false = .ok .absent := by
  refine ⟨tx "rsync://a/m/rsync://x.roa",
    FS.set ⟨ancestors (clean (tx "/cache/a/m/rsync:")), []⟩ (clean (tx "/cache/a/m/rsync:/x.roa")) [1], by decide +kernel, ?_⟩
  intro sha256 repos hr
  have h1 : (FS.set ⟨ancestors (clean (tx "/cache/a/m/rsync:")), []⟩ (clean (tx "/cache/a/m/rsync:/x.roa")) [1]).read
      (getLocalPath (tx "rsync://a/m/rsync://x.roa") (rsyncMap baseS)) = none := by decide +kernel
  have h2 : moduleOf (tx "rsync://a/m/rsync://x.roa") = tx "rsync://a/m" := by decide +kernel
  unfold getFileConv fetchFile
  rw [h1]
  simp [h2, hr]

/-- **C72 is violated: an empty base.** With an empty cache directory files are stored relative to the working directory and
    looked for at the root. -/
theorem C72_violated_empty_base : ∃ uri, OneScheme uri ∧
    (target [] uri).rooted = false ∧ (clean (getLocalPath uri (rsyncMap []))).rooted = true :=
  ⟨uX, ⟨tx "a/m/x.roa", by decide +kernel, by
    rw [← contains_iff]; decide +kernel⟩, by decide +kernel, by decide +kernel⟩

/-- **C72 is violated: order of the mappings.** With several mappings (`-map.dir` of localrpki) the local file depends on the order in
    which Go ranges over the map, if a target directory contains another mapping's key. -/
theorem C72_violated_map_order : ∃ (uri : Bytes) (m1 m2 : List (Bytes × Bytes)), m1.Perm m2 ∧
    parseMapDirectory (tx "rsync://a/=/c/b,b/=/d/") = m1.reverse ∧
    clean (getLocalPath uri m1) ≠ clean (getLocalPath uri m2) :=
  ⟨tx "rsync://a/x", [(tx "rsync://a/", tx "/c/b"), (tx "b/", tx "/d/")], [(tx "b/", tx "/d/"), (tx "rsync://a/", tx "/c/b")],
    List.Perm.swap _ _ _, by decide +kernel, by decide +kernel⟩

theorem uX_one : OneScheme uX := ⟨tx "a/m/x.roa", by decide +kernel, by rw [← contains_iff]; decide +kernel⟩

/-- The hypotheses can be met: storing, then reading through a manifest. -/
example : ∃ fs', writeRsyncFile osFine baseS ⟨[], []⟩ uX [4, 1, 7] = .ok (fs', true) ∧
    getFile (fun b => b.take 1) fs' (rsyncMap baseS) [] [⟨none, tx "rsync://a/m/", tx "m.mft", .mft, false, none⟩]
      ⟨some 0, [], tx "x.roa", .roa, false, some []⟩ = .ok (.found ⟨tx "x.roa", [4, 1, 7], [4]⟩) :=
  ⟨FS.set ⟨ancestors (clean (tx "/cache/a/m")), []⟩ (clean (tx "/cache/a/m/x.roa")) [4, 1, 7], by decide +kernel,
    C72_manifest_file_partial _ osFine baseS (by decide) ⟨[], []⟩ _ [4, 1, 7] [4, 1, 7] [] _ ⟨some 0, [], tx "x.roa", .roa, false, some []⟩
      ⟨none, tx "rsync://a/m/", tx "m.mft", .mft, false, none⟩ 0 rfl rfl rfl (by decide +kernel) (by decide) (by decide +kernel) (by decide +kernel)
      uX_one⟩

/-! ## C80 — missing files are reported once their repository has been synchronised -/

/-- **C80, what is found.** A file is found exactly if the local file can be read and, unless it is a TAL, converted to DER. The
    data is the conversion of the file and the hash is that of the file as it is. -/
theorem C80_found_exact (sha256 : Bytes → Bytes) (fs : FS) (map : List (Bytes × Bytes)) (repos : List Bytes) (files : List PKIFile)
    (f : PKIFile) (s : Seek) :
    getFile sha256 fs map repos files f = .ok (.found s) ↔
      ∃ raw, fs.read (getLocalPath (f.computePath files) map) = some raw ∧ s.file = f.path ∧ s.sha = sha256 raw ∧
        (if f.type = .tal then s.data = raw else Ber.BER2DER raw = .ok s.data) := by
  unfold getFile getFileConv fetchFile
  cases hr : fs.read (getLocalPath (f.computePath files) map) with
  | none => simp; split <;> simp
  | some raw =>
    by_cases ht : f.type = .tal
    · simp only [ht, ne_eq, not_true_eq_false, decide_false, Bool.false_eq_true, if_false, if_true, Go.ok.injEq, Answer.found.injEq]
      constructor
      · rintro rfl; exact ⟨raw, rfl, rfl, rfl, rfl⟩
      · rintro ⟨_, ⟨rfl⟩, h1, h2, h3⟩; cases s; simp at h1 h2 h3; simp [h1, h2, h3]
    · simp only [ht, ne_eq, not_false_eq_true, decide_true, if_true, if_false]
      cases hb : Ber.BER2DER raw with
      | ok d =>
        simp only [Go.ok.injEq, Answer.found.injEq]
        constructor
        · rintro rfl; exact ⟨raw, rfl, rfl, rfl, hb⟩
        · rintro ⟨_, ⟨rfl⟩, h1, h2, h3⟩
          rw [hb] at h3
          cases s; simp at h1 h2 h3; simp [h1, h2, h3]
      | err e =>
        simp only
        constructor
        · intro h; split at h <;> simp at h
        · rintro ⟨_, ⟨rfl⟩, h1, h2, h3⟩; rw [hb] at h3; simp at h3
      | panic =>
        constructor
        · intro h; simp at h
        · rintro ⟨_, ⟨rfl⟩, h1, h2, h3⟩; rw [hb] at h3; simp at h3
      | diverge =>
        constructor
        · intro h; simp at h
        · rintro ⟨_, ⟨rfl⟩, h1, h2, h3⟩; rw [hb] at h3; simp at h3

/-- **C80, reported (partial: files that are known by their full URI).** A file that cannot be read is an error if its module has been
    synchronised, and is passed over if not. Missing: files that a manifest lists, see the violation. -/
theorem C80_missing_reported_partial (sha256 : Bytes → Bytes) (fs : FS) (map : List (Bytes × Bytes)) (repos : List Bytes) (uri host module : Bytes)
    (der : Bool) (h1 : (47 : UInt8) ∉ host) (h2 : (47 : UInt8) ∉ module)
    (hu : uri = moduleURI host module ∨ moduleURI host module ++ [47] <+: uri)
    (hr : fs.read (getLocalPath uri map) = none) :
    getFileConv sha256 fs map repos uri uri der = .ok (if moduleURI host module ∈ repos then .fail else .absent) := by
  have hd : uri.drop 8 = host ++ 47 :: module ∨ ∃ rest, uri.drop 8 = host ++ 47 :: (module ++ 47 :: rest) := by
    rcases hu with rfl | ⟨t, rfl⟩
    · left
      rw [moduleURI, List.append_assoc]
      exact List.drop_left (l₁ := rsyncScheme)
    · right
      refine ⟨t, ?_⟩
      have : moduleURI host module ++ [47] ++ t = rsyncScheme ++ (host ++ 47 :: (module ++ 47 :: t)) := by simp [moduleURI]
      rw [this]
      exact List.drop_left (l₁ := rsyncScheme)
  have hl : uri.length > 8 := by
    have h8 : rsyncScheme.length = 8 := by decide
    rcases hu with rfl | ⟨t, rfl⟩
    · simp [moduleURI, h8]; omega
    · simp [moduleURI, h8]; omega
  have hm : moduleOf uri = moduleURI host module := by
    have hs : ∃ l, splitSlash (uri.drop 8) = host :: module :: l := by
      rcases hd with hd | ⟨rest, hd⟩
      · exact ⟨[], by rw [hd, splitSlash_append, splitSlash_plain _ h1, splitSlash_plain _ h2]; rfl⟩
      · exact ⟨splitSlash rest, by rw [hd, splitSlash_append, splitSlash_append, splitSlash_plain _ h1, splitSlash_plain _ h2]; rfl⟩
    obtain ⟨l, hs⟩ := hs
    simp [moduleOf, extractDomainModule, hl, hs, moduleURI]
  unfold getFileConv fetchFile
  rw [hr, hm]
  simp only
  split <;> rfl

/-- **C80 is violated: files listed in manifests.** The module is looked up from the listed name instead of the full path. So a listed
    file that cannot be read is never reported, whatever has been synchronised. (`repos` holds modules, which are not
    empty.) -/
theorem C80_violated_manifest_files (sha256 : Bytes → Bytes) (fs : FS) (map : List (Bytes × Bytes)) (repos : List Bytes) (hn : [] ∉ repos)
    (files : List PKIFile) (f : PKIFile) (hs : (47 : UInt8) ∉ f.path)
    (hr : fs.read (getLocalPath (f.computePath files) map) = none) :
    getFile sha256 fs map repos files f = .ok .absent := by
  have hm : moduleOf f.path = [] := by
    unfold moduleOf extractDomainModule
    split
    · rename_i h
      split at h
      · rw [splitSlash_plain _ (fun hc => hs (List.mem_of_mem_drop hc))] at h
        simp at h
      · simp at h
    · rfl
  unfold getFile getFileConv fetchFile
  rw [hr, hm]
  simp [hn]

/-- Both cases occur: the same missing file, known by its URI and listed by a manifest, in a synchronised repository. -/
example : getFileConv (fun b => b) ⟨[], []⟩ (rsyncMap baseS) [tx "rsync://a/m"] uX uX true = .ok .fail ∧
    getFile (fun b => b) ⟨[], []⟩ (rsyncMap baseS) [tx "rsync://a/m"] [⟨none, tx "rsync://a/m/", tx "m.mft", .mft, false, none⟩]
      ⟨some 0, [], tx "x.roa", .roa, false, some []⟩ = .ok .absent := by
  constructor
  · have := C80_missing_reported_partial (fun b => b) ⟨[], []⟩ (rsyncMap baseS) [tx "rsync://a/m"] uX (tx "a") (tx "m") true (by decide) (by decide)
      (.inr ⟨tx "x.roa", by decide +kernel⟩) (by decide +kernel)
    rw [this]
    have : moduleURI (tx "a") (tx "m") ∈ [tx "rsync://a/m"] := by decide +kernel
    simp [this]
  · exact C80_violated_manifest_files _ _ _ _ (by decide) _ _ (by decide) (by decide +kernel)

/-! ## C81 — exploring without manifests -/

/-- **C81 is violated: nothing is found.** The directory is listed under its rsync URI, not under its local path. As long as the working
    directory has no directory `rsync:`, exploring a repository without its manifest fails and adds nothing. -/
theorem C81_violated_nothing_listed (sha256 : Bytes → Bytes) (fs : FS) (map : List (Bytes × Bytes)) (fid : Nat) (f : PKIFile) (rest : Bytes)
    (hr : f.repo = rsyncScheme ++ rest) (hu : [46, 46] ∉ splitSlash rest)
    (hd : ∀ p ∈ fs.dirs, p.rooted = false → p.comps.head? ≠ some (asc "rsync:".toList)) :
    getRepository sha256 fs map fid f = .ok ([], false) := by
  have e : f.repo = asc "rsync:".toList ++ 47 :: (47 :: rest) := by rw [hr]; rfl
  have hc : clean f.repo = ⟨false, asc "rsync:".toList :: keep (splitSlash (47 :: rest))⟩ := by
    rw [e, clean_append _ _ (by decide)]
    · have h1 : (clean (asc "rsync:".toList)).rooted = false := by decide +kernel
      have h2 : (clean (asc "rsync:".toList)).comps = [asc "rsync:".toList] := by decide +kernel
      rw [h1, h2]; rfl
    · intro c hc
      have : splitSlash (47 :: rest) = [] :: splitSlash rest := by simp [splitSlash]
      rw [this] at hc
      simp at hc
      rcases hc with rfl | hc
      · decide
      · rintro rfl; exact hu hc
  have hn : fs.isDir (clean f.repo) = false := by
    rw [hc]
    unfold FS.isDir
    simp only [Bool.or_eq_false_iff]
    constructor
    · have : decide (asc "rsync:".toList = dotdot) = false := by decide +kernel
      simp only [List.all_cons, this, Bool.false_and]
    · rw [Bool.eq_false_iff]
      intro hm
      simp at hm
      exact hd _ hm rfl rfl
  unfold getRepository FS.readDir
  simp [hn]

/-- The files among the names of a directory. -/
def plainFiles (names : List (Bytes × Bool)) : List Bytes := (names.filter (fun x => !x.2)).map (·.1)

theorem repoLoop_all (sha256 : Bytes → Bytes) (fs : FS) (localPath repo own : Bytes) (fid : Nat) (data : Bytes → Bytes × Bytes) :
    ∀ (names : List (Bytes × Bool)),
      (∀ x ∈ names, x.2 = false → fs.read (localPath ++ x.1) = some (data x.1).1 ∧ Ber.BER2DER (data x.1).1 = .ok (data x.1).2) →
      repoLoop sha256 fs localPath repo own fid names = .ok ((plainFiles names).map (fun n =>
        (⟨some fid, repo, repo ++ n, typeOfName n, false, none⟩, ⟨own, (data n).2, sha256 (data n).1⟩)), true)
  | [], _ => by simp [repoLoop, plainFiles]
  | (n, d) :: rest, h => by
    have ih := repoLoop_all sha256 fs localPath repo own fid data rest (fun x hx => h x (by simp [hx]))
    cases d with
    | true => simp [repoLoop, ih, plainFiles]
    | false =>
      obtain ⟨h1, h2⟩ := h (n, false) (by simp) rfl
      simp [repoLoop, fetchFile, h1, h2, ih, plainFiles]

theorem splitOn_plain (sep : UInt8) : ∀ (n : Bytes), sep ∉ n → splitOn sep n = [n]
  | [], _ => rfl
  | b :: r, h => by
    simp only [List.mem_cons, not_or] at h
    simp [splitOn, splitOn_plain sep r h.2, Ne.symm h.1]

theorem splitOn_ne_nil (sep : UInt8) : ∀ (n : Bytes), splitOn sep n ≠ []
  | [] => by simp [splitOn]
  | b :: r => by
    unfold splitOn
    split
    · simp
    · split <;> simp

theorem splitOn_append (sep : UInt8) (e : Bytes) : ∀ (s : Bytes), splitOn sep (s ++ sep :: e) = splitOn sep s ++ splitOn sep e
  | [] => by simp [splitOn]
  | b :: r => by
    have ih := splitOn_append sep e r
    simp only [List.cons_append, splitOn, ih]
    split
    · simp
    · cases h : splitOn sep r with
      | nil => exact absurd h (splitOn_ne_nil sep r)
      | cons a l => simp

theorem splitOn_last (sep : UInt8) (n e : Bytes) (he : sep ∉ e) (h : n = e ∨ ∃ s, n = s ++ sep :: e) :
    (splitOn sep n).getLast? = some e := by
  rcases h with rfl | ⟨s, rfl⟩
  · simp [splitOn_plain sep n he]
  · simp [splitOn_append, splitOn_plain sep e he]

theorem has_extension : ∀ (n : Bytes), ∃ e, Extension n e
  | [] => ⟨[], by simp [Extension]⟩
  | b :: r => by
    obtain ⟨e, h1, h2⟩ := has_extension r
    rcases h2 with rfl | ⟨s, rfl⟩
    · by_cases hb : b = 46
      · exact ⟨r, h1, .inr ⟨[], by simp [hb]⟩⟩
      · exact ⟨b :: r, by simp [h1, Ne.symm hb], .inl rfl⟩
    · exact ⟨e, h1, .inr ⟨b :: s, by simp⟩⟩

/-- **C81, types.** The type under which a file is handed over is decided by the end of its name, exactly; each name has one
    end (so a file called just `cer` counts as a certificate). -/
theorem C81_types (n : Bytes) :
    (typeOfName n = .crl ↔ Extension n (tx "crl")) ∧ (typeOfName n = .cer ↔ Extension n (tx "cer")) ∧
    (typeOfName n = .mft ↔ Extension n (tx "mft")) ∧ (typeOfName n = .roa ↔ Extension n (tx "roa")) ∧
    (typeOfName n = .unknown ↔ ¬ Extension n (tx "crl") ∧ ¬ Extension n (tx "cer") ∧ ¬ Extension n (tx "mft") ∧ ¬ Extension n (tx "roa")) := by
  obtain ⟨e, he, hn⟩ := has_extension n
  have hl := splitOn_last 46 n e he hn
  have key : ∀ x, Extension n x ↔ e = x := by
    intro x
    constructor
    · rintro ⟨hx, hx'⟩
      have := splitOn_last 46 n x hx hx'
      rw [hl] at this
      exact Option.some.inj this
    · rintro rfl; exact ⟨he, hn⟩
  simp only [key]
  unfold typeOfName
  rw [hl]
  have e1 : asc ['c', 'r', 'l'] = tx "crl" := rfl
  have e2 : asc ['c', 'e', 'r'] = tx "cer" := rfl
  have e3 : asc ['m', 'f', 't'] = tx "mft" := rfl
  have e4 : asc ['r', 'o', 'a'] = tx "roa" := rfl
  simp only [e1, e2, e3, e4]
  by_cases h1 : e = tx "crl"
  · subst h1; decide +kernel
  by_cases h2 : e = tx "cer"
  · subst h2; decide +kernel
  by_cases h3 : e = tx "mft"
  · subst h3; decide +kernel
  by_cases h4 : e = tx "roa"
  · subst h4; decide +kernel
  simp [h1, h2, h3, h4]

example : Extension (tx "a.b.roa") (tx "roa") ∧ typeOfName (tx "a.b.roa") = .roa := by
  refine ⟨⟨by decide +kernel, .inr ⟨tx "a.b", by decide +kernel⟩⟩, by decide +kernel⟩

theorem repoLoop_stop (sha256 : Bytes → Bytes) (fs : FS) (localPath repo own : Bytes) (fid : Nat) (data : Bytes → Bytes × Bytes)
    (bad : Bytes) (rest : List (Bytes × Bool))
    (hbad : fs.read (localPath ++ bad) = none ∨ ∃ d e, fs.read (localPath ++ bad) = some d ∧ Ber.BER2DER d = .err e) :
    ∀ (names : List (Bytes × Bool)),
      (∀ x ∈ names, x.2 = false → fs.read (localPath ++ x.1) = some (data x.1).1 ∧ Ber.BER2DER (data x.1).1 = .ok (data x.1).2) →
      repoLoop sha256 fs localPath repo own fid (names ++ (bad, false) :: rest) = .ok ((plainFiles names).map (fun n =>
        (⟨some fid, repo, repo ++ n, typeOfName n, false, none⟩, ⟨own, (data n).2, sha256 (data n).1⟩)), false)
  | [], _ => by
    rcases hbad with h | ⟨d, e, h1, h2⟩
    · simp [repoLoop, plainFiles, fetchFile, h]
    · simp [repoLoop, plainFiles, fetchFile, h1, h2]
  | (n, d) :: ns, h => by
    have ih := repoLoop_stop sha256 fs localPath repo own fid data bad rest hbad ns (fun x hx => h x (by simp [hx]))
    cases d with
    | true => simp [repoLoop, ih, plainFiles]
    | false =>
      obtain ⟨h1, h2⟩ := h (n, false) (by simp) rfl
      simp [repoLoop, fetchFile, h1, h2, ih, plainFiles]

/-- **C81, a bad file.** When a file of the directory cannot be read or converted, the files before it (in the order of their
    names) have been handed over, none after it is, and the failure is reported. -/
theorem C81_bad_file (sha256 : Bytes → Bytes) (fs : FS) (fid : Nat) (f : PKIFile) (names rest : List (Bytes × Bool)) (bad : Bytes)
    (hn : fs.readDir f.repo = some (names ++ (bad, false) :: rest)) (data : Bytes → Bytes × Bytes)
    (hbad : fs.read (f.repo ++ bad) = none ∨ ∃ d e, fs.read (f.repo ++ bad) = some d ∧ Ber.BER2DER d = .err e)
    (h : ∀ x ∈ names, x.2 = false → fs.read (f.repo ++ x.1) = some (data x.1).1 ∧ Ber.BER2DER (data x.1).1 = .ok (data x.1).2) :
    ∃ calls, getRepository sha256 fs [] fid f = .ok (calls, false) ∧ calls.map (·.1.path) = (plainFiles names).map (f.repo ++ ·) := by
  refine ⟨(plainFiles names).map (fun n =>
      (⟨some fid, f.repo, f.repo ++ n, typeOfName n, false, none⟩, ⟨f.path, (data n).2, sha256 (data n).1⟩)), ?_, by simp⟩
  unfold getRepository
  rw [hn]
  exact repoLoop_stop sha256 fs f.repo f.repo f.path fid data bad rest hbad names h

/-- A directory with a good file and one that is not BER. -/
def fsBad : FS := ⟨[clean (tx "/r")], [(clean (tx "/r/a.roa"), [4, 1, 9]), (clean (tx "/r/b.cer"), [])]⟩

example : fsBad.readDir (tx "/r/") = some ([(tx "a.roa", false)] ++ (tx "b.cer", false) :: []) ∧
    (∃ d e, fsBad.read (tx "/r/" ++ tx "b.cer") = some d ∧ Ber.BER2DER d = .err e) ∧
    fsBad.read (tx "/r/" ++ tx "a.roa") = some [4, 1, 9] ∧ Ber.BER2DER [4, 1, 9] = .ok [4, 1, 9] := by
  refine ⟨by decide +kernel, ⟨[], _, by decide +kernel, rfl⟩, by decide +kernel, by decide +kernel⟩

/-- **C81, everything is listed (partial: the repository is named by a local path, and each of its files can be read and converted).**
    Each file of the directory that is not a directory is handed over once, under the directory's name followed by its own,
    with its converted data and the hash of the file. -/
theorem C81_all_files_partial (sha256 : Bytes → Bytes) (fs : FS) (fid : Nat) (f : PKIFile) (names : List (Bytes × Bool))
    (hn : fs.readDir f.repo = some names) (data : Bytes → Bytes × Bytes)
    (h : ∀ x ∈ names, x.2 = false → fs.read (f.repo ++ x.1) = some (data x.1).1 ∧ Ber.BER2DER (data x.1).1 = .ok (data x.1).2) :
    ∃ calls, getRepository sha256 fs [] fid f = .ok (calls, true) ∧
      calls.map (·.1.path) = (plainFiles names).map (f.repo ++ ·) ∧
      ∀ c ∈ calls, ∃ n, n ∈ plainFiles names ∧ c.1.path = f.repo ++ n ∧ c.2.data = (data n).2 ∧ c.2.sha = sha256 (data n).1 ∧ c.1.parent = some fid ∧ c.1.type = typeOfName n := by
  refine ⟨(plainFiles names).map (fun n =>
      (⟨some fid, f.repo, f.repo ++ n, typeOfName n, false, none⟩, ⟨f.path, (data n).2, sha256 (data n).1⟩)), ?_, ?_, ?_⟩
  · unfold getRepository
    rw [hn]
    exact repoLoop_all sha256 fs f.repo f.repo f.path fid data names h
  · simp
  · intro c hc
    simp at hc
    obtain ⟨n, hn, rfl⟩ := hc
    exact ⟨n, hn, rfl, rfl, rfl, rfl, rfl⟩

theorem mem_oncePer (n : Bytes) : ∀ (l : List Bytes), n ∈ oncePer l ↔ n ∈ l
  | [] => by simp [oncePer]
  | x :: xs => by
    unfold oncePer
    split
    · rename_i h
      rw [mem_oncePer n xs]
      simp only [List.mem_cons]
      exact ⟨.inr, fun h' => h'.elim (fun e => e ▸ h) id⟩
    · simp [mem_oncePer n xs]

theorem oncePer_nodup : ∀ (l : List Bytes), (oncePer l).Nodup
  | [] => by simp [oncePer]
  | x :: xs => by
    unfold oncePer
    split
    · exact oncePer_nodup xs
    · rename_i h
      exact List.nodup_cons.mpr ⟨by rw [mem_oncePer]; exact h, oncePer_nodup xs⟩

/-- Each name in a directory is listed once, and exactly those of the files and directories in it. -/
theorem C81_listing (fs : FS) (path : Bytes) (names : List (Bytes × Bool)) (h : fs.readDir path = some names) :
    (names.map (·.1)).Nodup ∧
    ∀ n, n ∈ names.map (·.1) ↔ ∃ q, q = ⟨(clean path).rooted, (clean path).comps ++ [n]⟩ ∧ (q ∈ fs.dirs ∨ fs.file q ≠ none) := by
  have hf : ∀ q, fs.file q ≠ none ↔ q ∈ fs.files.map (·.1) := by
    intro q
    unfold FS.file
    induction fs.files with
    | nil => simp
    | cons a l ih =>
      obtain ⟨k, v⟩ := a
      rw [List.lookup_cons]
      by_cases hq : q = k
      · simp [hq]
      · have : (q == k) = false := by simp [hq]
        simp only [this, List.map_cons, List.mem_cons, hq, false_or]
        exact ih
  unfold FS.readDir at h
  simp only at h
  split at h
  · simp only [Option.some.injEq] at h
    subst h
    simp only [List.map_map]
    have e : ∀ (l : List Bytes), List.map ((fun x => x.1) ∘ fun n => (n, fs.isDir ⟨(clean path).rooted, (clean path).comps ++ [n]⟩)) l = l := by
      intro l; induction l with
      | nil => rfl
      | cons a l ih => simp [ih]
    rw [e]
    constructor
    · exact (Der.sortSet_perm _).nodup_iff.mpr (oncePer_nodup _)
    · intro n
      rw [(Der.sortSet_perm _).mem_iff, mem_oncePer]
      simp only [List.mem_filterMap, List.mem_filter, List.mem_append]
      constructor
      · rintro ⟨q, ⟨hq, hc⟩, hl⟩
        simp at hc
        refine ⟨q, ?_, ?_⟩
        rotate_left
        · rcases hq with hq | hq
          · exact .inr ((hf q).mpr hq)
          · exact .inl hq
        · obtain ⟨h1, h2, h3⟩ := hc
          rw [List.getLast?_eq_some_getLast h2] at hl
          simp at hl
          have := List.dropLast_concat_getLast h2
          rw [h3, hl] at this
          cases q; simp at h1 this ⊢; exact ⟨h1, this.symm⟩
      · rintro ⟨q, rfl, hq⟩
        refine ⟨⟨(clean path).rooted, (clean path).comps ++ [n]⟩, ⟨?_, ?_⟩, ?_⟩
        · rcases hq with hq | hq
          · exact .inr hq
          · exact .inl ((hf _).mp hq)
        · simp
        · simp
  · simp at h

/-- The hypotheses can be met: a local directory with a file and a directory in it. -/
example :
    let fs : FS := ⟨ancestors (clean (tx "/r/sub")), [(clean (tx "/r/b.roa"), [4, 1, 7])]⟩
    fs.readDir (tx "/r/") = some [(tx "b.roa", false), (tx "sub", true)] ∧
    getRepository (fun b => b.take 1) fs [] 5 ⟨none, tx "/r/", tx "/r/m.mft", .mft, false, none⟩ =
      .ok ([(⟨some 5, tx "/r/", tx "/r/b.roa", .roa, false, none⟩, ⟨tx "/r/m.mft", [4, 1, 7], [4]⟩)], true) ∧
    getRepository (fun b => b.take 1) fs [] 5 ⟨none, tx "rsync://a/m/", tx "m.mft", .mft, false, none⟩ = .ok ([], false) := by
  refine ⟨by decide +kernel, by decide +kernel, ?_⟩
  exact C81_violated_nothing_listed _ _ _ _ _ (tx "a/m/") (by decide +kernel) (by decide +kernel) (by decide +kernel)

/-! ## C79 — trust anchor certificates are stored where the validator looks for them -/

theorem isHttp_iff (u : Bytes) : (hasPrefix u httpScheme || hasPrefix u httpsScheme) = true ↔ IsHttp u := by
  simp only [Bool.or_eq_true, hasPrefix_iff]
  rfl

theorem talUrl_spec {sha1 : Bytes → Bytes} {http : Bytes → Option Bytes} {os : OS} {base : Bytes} {t : Tal.RPKITAL} {fs fs' : FS}
    {u : Bytes} {b : Bool} (h : fetchTALurl sha1 http os base t fs u = .ok (fs', b)) :
    (fs' = fs ∧ b = false ∧ (IsHttp u → http u = none)) ∨
    (∃ d, IsHttp u ∧ http u = some d ∧ writeRsyncFile os base fs (t.getRsyncURI sha1) d = .ok (fs', b)) := by
  unfold fetchTALurl at h
  split at h
  · rename_i hs
    rw [isHttp_iff] at hs
    split at h
    · rename_i hn
      simp at h
      exact .inl ⟨h.1.symm, h.2, fun _ => hn⟩
    · rename_i d hd
      exact .inr ⟨d, hs, hd, h⟩
  · rename_i hs
    rw [isHttp_iff] at hs
    simp at h
    exact .inl ⟨h.1.symm, h.2, fun h => (hs h).elim⟩

theorem talLoop_some {sha1 : Bytes → Bytes} {http : Bytes → Option Bytes} {os : OS} {base : Bytes} {t : Tal.RPKITAL} {u : Bytes} :
    ∀ {us : List Bytes} {fs fs' : FS}, fetchTALLoop sha1 http os base t us fs = .ok (fs', some u) →
    ∃ before after d fs1, us = before ++ u :: after ∧ IsHttp u ∧ http u = some d ∧
      writeRsyncFile os base fs1 (t.getRsyncURI sha1) d = .ok (fs', true) ∧
      ∀ v ∈ before, IsHttp v → http v = none ∨ ∃ fs1 fs2 d, http v = some d ∧ writeRsyncFile os base fs1 (t.getRsyncURI sha1) d = .ok (fs2, false)
  | [], fs, fs', h => by simp [fetchTALLoop] at h
  | v :: us, fs, fs', h => by
    unfold fetchTALLoop at h
    split at h
    · rename_i fs1 h1
      simp at h
      obtain ⟨rfl, rfl⟩ := h
      rcases talUrl_spec h1 with ⟨_, hb, _⟩ | ⟨d, h2, h3, h4⟩
      · simp at hb
      · exact ⟨[], us, d, fs, rfl, h2, h3, h4, by simp⟩
    · rename_i fs1 h1
      obtain ⟨before, after, d, fs2, e, h2, h3, h4, h5⟩ := talLoop_some h
      refine ⟨v :: before, after, d, fs2, by simp [e], h2, h3, h4, ?_⟩
      intro w hw hh
      simp at hw
      rcases hw with rfl | hw
      · rcases talUrl_spec h1 with ⟨_, _, hn⟩ | ⟨d, _, h3, h4⟩
        · exact .inl (hn hh)
        · exact .inr ⟨_, _, d, h3, h4⟩
      · exact h5 w hw hh
    · simp at h
    · simp at h
    · simp at h

/-- **C79, stored (partial: TALs whose rsync URI has one scheme; storing over HTTP).** When the program says that it has downloaded the
    certificate of a TAL from `u`, then `u` is one of the TAL's HTTP URIs, the cache holds what `u` answered, exactly at the
    path where the validator looks for the certificate of this TAL, and each HTTP URI before `u` gave no answer or its answer
    could not be stored. -/
theorem C79_stored_partial (failover : Bool) (sha1 : Bytes → Bytes) (http : Bytes → Option Bytes) (os : OS) (base : Bytes) (hb : base ≠ [])
    (t : Tal.RPKITAL) (fs fs' : FS) (jobs jobs' : Pki.Map Bytes) (u : Bytes)
    (h : fetchTAL failover sha1 http os base t fs jobs = .ok (fs', jobs', some u)) (hu : OneScheme (t.getRsyncURI sha1)) :
    jobs' = jobs ∧ ∃ before after d, t.uri = before ++ u :: after ∧ IsHttp u ∧ http u = some d ∧
      fs'.read (getLocalPath (t.getRsyncURI sha1) (rsyncMap base)) = some d ∧
      ∀ v ∈ before, IsHttp v → http v = none ∨
        ∃ fs1 fs2 d, http v = some d ∧ writeRsyncFile os base fs1 (t.getRsyncURI sha1) d = .ok (fs2, false) := by
  unfold fetchTAL at h
  split at h
  · rename_i fs1 v h1
    simp at h
    obtain ⟨rfl, rfl, rfl⟩ := h
    obtain ⟨before, after, d, fs2, e, h2, h3, h4, h5⟩ := talLoop_some h1
    exact ⟨rfl, before, after, d, e, h2, h3, write_read hb h4 hu, h5⟩
  · split at h <;> simp at h
  · simp at h
  · simp at h
  · simp at h

theorem hex_no_colon : ∀ (b : Bytes), (58 : UInt8) ∉ Tal.hex b
  | [] => by simp [Tal.hex]
  | x :: r => by
    have hd : ∀ n : Fin 16, Tal.hexDigit n.val ≠ 58 := by decide
    simp only [Tal.hex, List.mem_cons, not_or]
    exact ⟨(hd ⟨x.toNat / 16, by have := x.toNat_lt; omega⟩).symm, (hd ⟨x.toNat % 16, by omega⟩).symm, hex_no_colon r⟩

/-- **C79, TALs without rsync.** The certificate of a TAL without an rsync URI has a made-up URI with one scheme, so it is
    stored and found like any other. -/
theorem C79_https_only (sha1 : Bytes → Bytes) (t : Tal.RPKITAL) (h : ∀ u ∈ t.uri, ¬ rsyncScheme <+: u) : OneScheme (t.getRsyncURI sha1) := by
  have hl : ∀ (us : List Bytes) (o : Bytes), (∀ u ∈ us, ¬ rsyncScheme <+: u) → (Tal.rsyncLoop us o).1 = [] := by
    intro us
    induction us with
    | nil => intro o _; rfl
    | cons u us ih =>
      intro o hu
      have : hasPrefix u rsyncScheme = false := by
        rw [Bool.eq_false_iff]; intro hp; exact hu u (by simp) ((hasPrefix_iff _ _).mp hp)
      simp only [Tal.rsyncLoop, this, Bool.false_eq_true, if_false]
      exact ih u (fun v hv => hu v (by simp [hv]))
  have e := hl t.uri [] h
  unfold Tal.RPKITAL.getRsyncURI
  simp only [e, if_true]
  refine ⟨asc "rfc8630/certs/".toList ++ Tal.hex (sha1 (Tal.rsyncLoop t.uri []).2) ++ asc ['.', 'c', 'e', 'r'], rfl, ?_⟩
  intro hi
  have h58 : (58 : UInt8) ∈ rsyncScheme := by decide
  have := hi.subset h58
  simp only [List.mem_append] at this
  rcases this with (this | this) | this
  · exact absurd this (by decide +kernel)
  · exact hex_no_colon _ this
  · exact absurd this (by decide)

theorem talLoop_other {sha1 : Bytes → Bytes} {http : Bytes → Option Bytes} {os : OS} {base : Bytes} {t : Tal.RPKITAL} {r : Option Bytes} (q : P)
    (hq : q ≠ target base (t.getRsyncURI sha1)) :
    ∀ {us : List Bytes} {fs fs' : FS}, fetchTALLoop sha1 http os base t us fs = .ok (fs', r) → fs'.file q = fs.file q
  | [], fs, fs', h => by simp [fetchTALLoop] at h; rw [h.1]
  | v :: us, fs, fs', h => by
    have key : ∀ {fs1 : FS} {b : Bool}, fetchTALurl sha1 http os base t fs v = .ok (fs1, b) → fs1.file q = fs.file q := by
      intro fs1 b h1
      rcases talUrl_spec h1 with ⟨rfl, _, _⟩ | ⟨d, _, _, h4⟩
      · rfl
      · obtain ⟨_, fs2, h5, h6⟩ := write_spec h4
        have e : fs2.file q = fs.file q := by simp [FS.file, (file_mkdir h5).1]
        rcases h6 with ⟨_, rfl, _⟩ | ⟨_, h6⟩
        · exact e
        · rw [(writeFile_spec h6).2.1 q hq, e]
    unfold fetchTALLoop at h
    split at h
    · rename_i fs1 h1
      simp at h
      obtain ⟨rfl, _⟩ := h
      exact key h1
    · rename_i fs1 h1
      rw [talLoop_other q hq h, key h1]
    · simp at h
    · simp at h
    · simp at h

/-- **C79, nothing else.** The download of a trust anchor certificate changes no other file. -/
theorem C79_other_files (failover : Bool) (sha1 : Bytes → Bytes) (http : Bytes → Option Bytes) (os : OS) (base : Bytes)
    (t : Tal.RPKITAL) (fs fs' : FS) (jobs jobs' : Pki.Map Bytes) (r : Option Bytes)
    (h : fetchTAL failover sha1 http os base t fs jobs = .ok (fs', jobs', r)) (q : P)
    (hq : q ≠ target base (t.getRsyncURI sha1)) : fs'.file q = fs.file q := by
  unfold fetchTAL at h
  split at h
  · rename_i fs1 v h1
    simp at h; obtain ⟨rfl, _⟩ := h
    exact talLoop_other q hq h1
  · rename_i fs1 h1
    have := talLoop_other q hq h1
    split at h <;> (simp at h; obtain ⟨rfl, _⟩ := h; exact this)
  · simp at h
  · simp at h
  · simp at h

/-- **C79, failover.** When no HTTP URI worked, the certificate is left to rsync exactly if that is switched on and the TAL has an rsync
    URI. -/
theorem C79_failover (failover : Bool) (sha1 : Bytes → Bytes) (http : Bytes → Option Bytes) (os : OS) (base : Bytes)
    (t : Tal.RPKITAL) (fs fs' : FS) (jobs jobs' : Pki.Map Bytes)
    (h : fetchTAL failover sha1 http os base t fs jobs = .ok (fs', jobs', none)) :
    (failover = true ∧ (∃ u ∈ t.uri, rsyncScheme <+: u) → jobs' = jobs.set (t.getRsyncURI sha1) []) ∧
    (¬ (failover = true ∧ ∃ u ∈ t.uri, rsyncScheme <+: u) → jobs' = jobs) := by
  have he : (failover && t.hasRsync) = true ↔ failover = true ∧ ∃ u ∈ t.uri, rsyncScheme <+: u := by
    simp [Tal.RPKITAL.hasRsync, hasPrefix_iff]
  unfold fetchTAL at h
  split at h
  · simp at h
  · split at h
    · rename_i hc
      simp at h
      exact ⟨fun _ => h.2.symm, fun hn => (hn (he.mp hc)).elim⟩
    · rename_i hc
      simp at h
      exact ⟨fun hn => (hc (he.mpr hn)).elim, fun _ => h.2.symm⟩
  · simp at h
  · simp at h
  · simp at h

theorem later_trans {os : OS} {tool : FS → Bytes → P → FS} {base : Bytes} {a b c : FS} (h1 : Later os tool base a b)
    (h2 : Later os tool base b c) : Later os tool base a c := by
  induction h2 with
  | same => exact h1
  | write url d b _ hw ih => exact .write url d b ih hw
  | rsync url b _ hw ih => exact .rsync url b ih hw

theorem talLoop_dir {sha1 : Bytes → Bytes} {http : Bytes → Option Bytes} {os : OS} {base : Bytes} {t : Tal.RPKITAL} {r : Option Bytes} :
    ∀ {us : List Bytes} {fs fs' : FS}, fs.isDir (target base (t.getRsyncURI sha1)) = true →
      fetchTALLoop sha1 http os base t us fs = .ok (fs', r) → r = none
  | [], fs, fs', _, h => by simp [fetchTALLoop] at h; exact h.2.symm
  | v :: us, fs, fs', hd, h => by
    unfold fetchTALLoop at h
    split at h
    · rename_i fs1 h1
      rcases talUrl_spec h1 with ⟨_, hb, _⟩ | ⟨d, _, _, h4⟩
      · simp at hb
      · have := write_dir h4 hd
        simp at this
    · rename_i fs1 h1
      refine talLoop_dir ?_ h
      rcases talUrl_spec h1 with ⟨rfl, _, _⟩ | ⟨d, _, _, h4⟩
      · exact hd
      · exact isDir_later (tool := noTool) noTool_keeps (.write _ d _ (.same fs) h4) hd
    · simp at h
    · simp at h
    · simp at h

/-- **C79 is violated: the failover to rsync.** To fetch the certificate with rsync the program first makes a directory with the name of
    the certificate's file. From then on, whatever is downloaded later, the validator cannot read the certificate, and a
    download over HTTP cannot store it: the trust anchor is lost until someone cleans the cache. -/
theorem C79_violated_failover (sha1 : Bytes → Bytes) (os : OS) (tool : FS → Bytes → P → FS) (hk : KeepsDirs tool) (base : Bytes)
    (hb : base ≠ []) (t : Tal.RPKITAL) (hu : OneScheme (t.getRsyncURI sha1)) (fs fs1 fs2 : FS)
    (h : fetchRsync os tool base fs (t.getRsyncURI sha1) = .ok (fs1, true)) (hl : Later os tool base fs1 fs2) :
    fs2.read (getLocalPath (t.getRsyncURI sha1) (rsyncMap base)) = none ∧
    ∀ (failover : Bool) (http : Bytes → Option Bytes) (jobs : Pki.Map Bytes) (x : FS × Pki.Map Bytes × Option Bytes),
      fetchTAL failover sha1 http os base t fs2 jobs = .ok x → x.2.2 = none := by
  have hp : hasPrefix (t.getRsyncURI sha1) rsyncScheme = true := by
    obtain ⟨rest, e, _⟩ := hu
    exact (hasPrefix_iff _ _).mpr (e ▸ ⟨rest, rfl⟩)
  have hd1 : fs1.isDir (target base (t.getRsyncURI sha1)) = true := by
    unfold fetchRsync rsyncDir extractFilePath at h
    simp only [isRsyncURL, hp, if_true, trim_rsync hp] at h
    split at h
    · simp at h
    · rename_i fs0 h0
      simp at h
      have h3 := mkdir_isDir h0
      rw [← h]
      unfold FS.isDir at h3 ⊢
      simp only [Bool.or_eq_true] at h3 ⊢
      rcases h3 with h3 | h3
      · exact .inl h3
      · right
        simp at h3 ⊢
        exact hk _ _ _ _ h3
  have hd := isDir_later hk hl hd1
  constructor
  · unfold FS.read
    rw [local_target hb hu, hd]
    rfl
  · intro failover http jobs x hx
    unfold fetchTAL at hx
    split at hx
    · rename_i fs3 u h3
      have := talLoop_dir hd h3
      simp at this
    · split at hx <;> (simp at hx; rw [← hx])
    · simp at hx
    · simp at hx
    · simp at hx

/-- A TAL with an HTTPS and an rsync URI. -/
def talL : Tal.RPKITAL := { uri := [tx "https://a/root.cer", tx "rsync://a/ta/root.cer"], isRSAAlg := true, isRSAOID := true, publicKey := .other }

/-- The two situations occur: a good download, and one failure of the HTTPS server, after which rsync is started and
    the next download, though it succeeds, cannot be stored. -/
example :
    (match fetchTAL true id (fun _ => some [9]) osFine baseS talL ⟨[], []⟩ [] with
     | .ok (fs, _, r) => (fs.read (getLocalPath (tx "rsync://a/ta/root.cer") (rsyncMap baseS)), r)
     | _ => (none, none)) = (some [9], some (tx "https://a/root.cer")) ∧
    (match fetchTAL true id (fun _ => none) osFine baseS talL ⟨[], []⟩ [] with
     | .ok (fs, jobs, _) =>
       match jobs with
       | [(uri, _)] =>
         match fetchRsync osFine (fun fs _ p => fs.set ⟨p.rooted, p.comps ++ [tx "root.cer"]⟩ [9]) baseS fs uri with
         | .ok (fs1, started) =>
           match fetchTAL true id (fun _ => some [9]) osFine baseS talL fs1 [] with
           | .ok (fs2, _, r) => (started, r, fs2.read (getLocalPath uri (rsyncMap baseS)), fs2.file (clean (tx "/cache/a/ta/root.cer/root.cer")))
           | _ => (false, none, none, none)
         | _ => (false, none, none, none)
       | _ => (false, none, none, none)
     | _ => (false, none, none, none)) = (true, none, none, some [9]) := by
  constructor <;> decide +kernel

end Verif.Props
