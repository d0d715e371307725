import Verif.Lemmas.Rrdp
/-
  Lemmas about the cache directory.
-/
set_option autoImplicit false

namespace Verif.Cache
open Path Rrdp SyncSpec
open Tal (hasPrefix rsyncScheme)

/-- What a run of FetchRRDP did. -/
theorem fetch_spec {σ : Type} (W : World) (cb : Callback σ) (s s' : Sys) (r r' : R σ) (b : Bool)
    (h : Rrdp.fetchRRDP W cb s r = .ok (s', r', b)) :
    (b = false → s' = s) ∧
    ((∃ x, r'.gets = r.gets ++ [s.path] ∧ r'.calls = r.calls ∧ r'.st = r.st ∧ b = false ∧ x = ()) ∧
        (W.getXML r.gets.length s.path).bind W.parseRoot = none ∨
      ∃ n, (W.getXML r.gets.length s.path).bind W.parseRoot = some n ∧
      ((SnapshotNeeded s n ∧ ∃ done, Did cb r r' [s.path, n.snapshot.uri] done ∧
          (∀ x ∈ done, x.1.snapshot = true ∧ x.1.serial = n.serial) ∧
          (b = true → ∀ x ∈ done, x.2 = true) ∧
          (done = [] ∨ ∃ d node, W.getXML (r.gets.length + 1) n.snapshot.uri = some d ∧ W.parseNode d = some node ∧
            ∀ all, nodeCalls s n true n.serial node = some all → done.map (·.1) <+: all) ∧
          (b = true → s' = ⟨s.path, n.sessionID, n.serial⟩ ∧ ∃ d node, W.getXML (r.gets.length + 1) n.snapshot.uri = some d ∧
            W.parseNode d = some node ∧ nodeCalls s n true n.serial node = some (done.map (·.1)))) ∨
       (¬ SnapshotNeeded s n ∧ ∃ es done, Did cb r r' (s.path :: es.map (·.uri)) done ∧ InOrder n (s.serial + 1) es ∧
          es.length ≤ (n.serial - s.serial).toNat ∧ (b = true → es.length = (n.serial - s.serial).toNat) ∧
          (∀ x ∈ done, x.1.snapshot = false ∧ ∃ e ∈ es, x.1.serial = e.serial) ∧
          (∀ x ∈ done, x.2 = false → b = true → x.1.withdraw = true) ∧
          (b = true → s' = ⟨s.path, n.sessionID, s.serial + ((n.serial - s.serial).toNat : Int)⟩ ∧
            DeltaCalls W s n (r.gets.length + 1) es (done.map (·.1))) ∧
          (∀ W' srv g' es' all, Answers W srv → Answers W' srv → W'.parseNode = W.parseNode →
            InOrder n (s.serial + 1) es' → es'.length = (n.serial - s.serial).toNat →
            DeltaCalls W' s n g' es' all → done.map (·.1) <+: all)))) := by
  unfold Rrdp.fetchRRDP at h
  have hd : Did cb r (download W r s.path).1 [s.path] [] := ⟨rfl, by simp [download], .nil _⟩
  have hl : (download W r s.path).1.gets.length = r.gets.length + 1 := by simp [download]
  simp only [] at h
  split at h
  · rename_i hn
    simp at h
    obtain ⟨rfl, rfl, rfl⟩ := h
    exact ⟨fun _ => rfl, .inl ⟨⟨(), rfl, rfl, rfl, rfl, rfl⟩, hn⟩⟩
  · rename_i n hn
    split at h
    · rename_i hs
      obtain ⟨y, hy, h⟩ := Go.bind_eq_ok.mp h
      obtain ⟨done, g1, g2, g3, g4, g5⟩ := node_spec W cb s n true n.serial true n.snapshot.uri _ y.1 y.2 hy
      rw [hl] at g3 g5
      have g1' : Did cb r y.1 [s.path, n.snapshot.uri] done := by simpa using hd.trans g1
      split at h
      · rename_i hy2
        simp at h
        obtain ⟨rfl, rfl, rfl⟩ := h
        refine ⟨by simp, .inr ⟨n, hn, .inl ⟨(needSnapshot_iff s n).mp hs, done, g1', g2, ?_, g3, fun _ => ⟨rfl, g5 hy2⟩⟩⟩⟩
        intro _ x hx
        cases hxo : x.2 with
        | true => rfl
        | false => have := (g4 x hx hxo hy2).1; simp at this
      · simp at h
        obtain ⟨rfl, rfl, rfl⟩ := h
        exact ⟨fun _ => rfl, .inr ⟨n, hn, .inl ⟨(needSnapshot_iff s n).mp hs, done, g1', g2, by simp, g3, by simp⟩⟩⟩
    · rename_i hs
      have hs' : ¬ SnapshotNeeded s n := fun hx => hs ((needSnapshot_iff s n).mpr hx)
      obtain ⟨y, hy, h⟩ := Go.bind_eq_ok.mp h
      obtain ⟨es, done, h1, h2, h3, h4, h5, h6, h7, h8⟩ := doDeltas_spec W cb s n _ _ _ y.1 y.2 hy
      rw [hl] at h7
      have h1' : Did cb r y.1 (s.path :: es.map (·.uri)) done := by simpa using hd.trans h1
      split at h
      · rename_i hy2
        simp at h
        obtain ⟨rfl, rfl, rfl⟩ := h
        refine ⟨by simp, .inr ⟨n, hn, .inr ⟨hs', es, done, h1', h2, h3, fun _ => h4 hy2, h5, fun x hx hf _ => h6 x hx hf hy2,
          fun _ => ⟨by simp, h7 hy2⟩, h8⟩⟩⟩
      · simp at h
        obtain ⟨rfl, rfl, rfl⟩ := h
        exact ⟨fun _ => rfl, .inr ⟨n, hn, .inr ⟨hs', es, done, h1', h2, h3, by simp, h5, by simp, by simp, h8⟩⟩⟩

/-! ### Files -/

theorem file_set (fs : FS) (p q : P) (d : Bytes) : (fs.set p d).file q = if q = p then some d else fs.file q := by
  unfold FS.set FS.file
  rw [List.lookup_cons]
  by_cases h : q = p
  · simp [h]
  · have : (q == p) = false := by simpa using h
    simp [this, h]

theorem file_mkdir {os : OS} {fs fs1 : FS} {p : P} (h : fs.mkdirAll os p = some fs1) :
    fs1.files = fs.files ∧ fs1.dirs = ancestors p ++ fs.dirs := by
  unfold FS.mkdirAll at h
  split at h
  · simp at h; subst h; exact ⟨rfl, rfl⟩
  · simp at h

theorem trim_rsync {url : Bytes} (h : hasPrefix url rsyncScheme = true) : trimPrefix url rsyncScheme = url.drop 8 := by
  simp only [trimPrefix, h, if_true]
  rfl

theorem writeFile_spec {os : OS} {fs fs' : FS} {p : P} {d : Bytes} {b : Bool} (h : fs.writeFile os p d = (fs', b)) :
    fs'.dirs = fs.dirs ∧ (∀ q, q ≠ p → fs'.file q = fs.file q) ∧ (b = true → fs'.file p = some d ∧ fs.isDir p = false) ∧
      (fs.isDir p = true → fs' = fs) := by
  unfold FS.writeFile at h
  split at h
  · rename_i hd
    simp at h
    obtain ⟨rfl, rfl⟩ := h
    exact ⟨rfl, fun _ _ => rfl, by simp, fun _ => rfl⟩
  · rename_i hd
    simp at hd
    split at h
    · simp at h; obtain ⟨rfl, rfl⟩ := h
      refine ⟨rfl, fun q hq => by simp [file_set, hq], fun _ => ⟨by simp [file_set], hd.1⟩, by simp [hd.1]⟩
    · simp at h; obtain ⟨rfl, rfl⟩ := h
      exact ⟨rfl, fun _ _ => rfl, by simp, fun _ => rfl⟩
    · simp at h; obtain ⟨rfl, rfl⟩ := h
      refine ⟨rfl, fun q hq => by simp [file_set, hq], by simp, by simp [hd.1]⟩

/-- The steps of `WriteRsyncFileOnDisk`. -/
theorem write_spec {os : OS} {base : Bytes} {fs fs' : FS} {url d : Bytes} {b : Bool}
    (h : writeRsyncFile os base fs url d = .ok (fs', b)) :
    hasPrefix url rsyncScheme = true ∧
    ∃ fs1, fs.mkdirAll os (joinPath base (joinSlash ((splitSlash (url.drop 8)).dropLast))) = some fs1 ∧
      ((contains (url.drop 8) [46, 46, 47] || contains (url.drop 8) [46, 46, 92]) = true ∧ fs' = fs1 ∧ b = false ∨
       (contains (url.drop 8) [46, 46, 47] || contains (url.drop 8) [46, 46, 92]) = false ∧
        fs1.writeFile os (target base url) d = (fs', b)) := by
  unfold writeRsyncFile extractFolders extractFilePath at h
  by_cases hr : hasPrefix url rsyncScheme = true
  · simp only [isRsyncURL, hr, if_true] at h
    rw [trim_rsync hr] at h
    refine ⟨hr, ?_⟩
    split at h
    · simp at h
    · rename_i fs1 hm
      refine ⟨fs1, hm, ?_⟩
      split at h
      · rename_i hc
        simp at h
        exact .inl ⟨hc, h.1.symm, h.2⟩
      · rename_i hc
        simp only [Go.ok.injEq] at h
        exact .inr ⟨by simpa using hc, h⟩
  · simp [isRsyncURL, hr] at h

/-- What a call of the callback does to files. -/
theorem callback_file {os : OS} {base domain : Bytes} {fs fs' : FS} {c : Call} {b : Bool}
    (h : callback os base domain fs c = .ok (fs', b)) :
    (∀ p, p ≠ target base c.path → fs'.file p = fs.file p) ∧
    (b = true → domain <:+: c.path → fs'.file (target base c.path) = some c.data) ∧
    (¬ domain <:+: c.path → fs' = fs ∧ b = true) := by
  unfold callback at h
  split at h
  · rename_i hc
    rw [contains_iff] at hc
    obtain ⟨_, fs1, h1, h2⟩ := write_spec h
    obtain ⟨e1, _⟩ := file_mkdir h1
    have hf : ∀ p, fs1.file p = fs.file p := fun p => by simp [FS.file, e1]
    refine ⟨?_, ?_, fun hn => (hn hc).elim⟩
    · intro p hp
      rcases h2 with ⟨_, rfl, _⟩ | ⟨_, h2⟩
      · exact hf p
      · rw [(writeFile_spec h2).2.1 p hp]; exact hf p
    · intro hb _
      rcases h2 with ⟨_, _, rfl⟩ | ⟨_, h2⟩
      · simp at hb
      · exact ((writeFile_spec h2).2.2.1 hb).1
  · rename_i hc
    simp only [contains_iff] at hc
    simp at h
    obtain ⟨rfl, rfl⟩ := h
    exact ⟨fun _ _ => rfl, fun _ hn => (hc hn).elim, fun _ => ⟨rfl, rfl⟩⟩

/-- Files that no call aims at stay. -/
theorem exec_other {os : OS} {base domain : Bytes} {fs fs' : FS} {l : List (Call × Bool)}
    (h : Exec (callback os base domain) fs l fs') (p : P)
    (hp : ∀ c ∈ l, domain <:+: c.1.path → target base c.1.path ≠ p) : fs'.file p = fs.file p := by
  induction h with
  | nil => rfl
  | cons s s1 s2 c ok l h _ ih =>
    rw [ih (fun x hx => hp x (by simp [hx]))]
    obtain ⟨h1, _, h3⟩ := callback_file h
    by_cases hd : domain <:+: c.path
    · exact h1 p (fun e => hp (c, ok) (by simp) hd e.symm)
    · rw [(h3 hd).1]

theorem exec_split {σ : Type} {cb : Callback σ} {s s' : σ} : ∀ {a b : List (Call × Bool)},
    Exec cb s (a ++ b) s' → ∃ s1, Exec cb s a s1 ∧ Exec cb s1 b s' := by
  intro a
  induction a generalizing s with
  | nil => intro b h; exact ⟨s, .nil _, h⟩
  | cons x a ih =>
    intro b h
    cases h with
    | cons _ s1 _ c ok _ h ht =>
      obtain ⟨s2, h1, h2⟩ := ih ht
      exact ⟨s2, .cons _ _ _ _ _ _ h h1, h2⟩

/-- The last successful call for a file decides its content. -/
theorem exec_last {os : OS} {base domain : Bytes} {fs fs' : FS} {a b : List (Call × Bool)} {c : Call}
    (h : Exec (callback os base domain) fs (a ++ (c, true) :: b) fs') (hd : domain <:+: c.path)
    (hb : ∀ x ∈ b, domain <:+: x.1.path → target base x.1.path ≠ target base c.path) :
    fs'.file (target base c.path) = some c.data := by
  obtain ⟨s1, _, h2⟩ := exec_split h
  cases h2 with
  | cons _ s2 _ _ _ _ h ht =>
    rw [exec_other ht _ hb]
    exact (callback_file h).2.1 rfl hd

/-- The content that a list of calls, all successful, leaves in a file. -/
def lastWrite (base domain : Bytes) (p : P) : List Call → Option Bytes → Option Bytes
  | [], x => x
  | c :: l, x => lastWrite base domain p l
      (if contains c.path domain && decide (target base c.path = p) then some c.data else x)

theorem exec_all {os : OS} {base domain : Bytes} {fs fs' : FS} {l : List (Call × Bool)}
    (h : Exec (callback os base domain) fs l fs') (hok : ∀ x ∈ l, x.2 = true) (p : P) :
    fs'.file p = lastWrite base domain p (l.map (·.1)) (fs.file p) := by
  induction h with
  | nil => rfl
  | cons s s1 s2 c ok l h _ ih =>
    rw [ih (fun x hx => hok x (by simp [hx]))]
    have hok' := hok (c, ok) (by simp)
    simp only at hok'
    subst hok'
    obtain ⟨h1, h2, h3⟩ := callback_file h
    show _ = lastWrite base domain p (l.map (·.1)) _
    congr 1
    by_cases hd : domain <:+: c.path
    · by_cases hp : target base c.path = p
      · simp [contains_iff, hd, hp]; rw [← hp]; exact h2 rfl hd
      · simp [hp]; exact h1 p (Ne.symm hp)
    · have : contains c.path domain = false := by
        cases hc : contains c.path domain with
        | false => rfl
        | true => exact (hd ((contains_iff _ _).mp hc)).elim
      simp [this, (h3 hd).1]

theorem lastWrite_hit (base domain : Bytes) (p : P) : ∀ (l : List Call) (x y : Option Bytes),
    (∃ c ∈ l, domain <:+: c.path ∧ target base c.path = p) → lastWrite base domain p l x = lastWrite base domain p l y
  | [], x, y, h => by simp at h
  | c :: l, x, y, h => by
    unfold lastWrite
    by_cases hc : domain <:+: c.path ∧ target base c.path = p
    · simp [contains_iff, hc]
    · obtain ⟨c', h1, h2⟩ := h
      simp at h1
      rcases h1 with rfl | h1
      · exact (hc h2).elim
      · exact lastWrite_hit base domain p l _ _ ⟨c', h1, h2⟩

/-- Made of two interrupted parts: if two caches differ only in files that the calls write, they are equal after
    the calls. -/
theorem exec_same {os os' : OS} {base domain : Bytes} {fs fs' g g' : FS} {l l' : List (Call × Bool)}
    (h : Exec (callback os base domain) fs l fs') (h' : Exec (callback os' base domain) g l' g')
    (hl : l.map (·.1) = l'.map (·.1)) (hok : ∀ x ∈ l, x.2 = true) (hok' : ∀ x ∈ l', x.2 = true)
    (hd : ∀ p, g.file p ≠ fs.file p → ∃ c ∈ l.map (·.1), domain <:+: c.path ∧ target base c.path = p) (p : P) :
    g'.file p = fs'.file p := by
  rw [exec_all h hok p, exec_all h' hok' p, ← hl]
  by_cases hp : g.file p = fs.file p
  · rw [hp]
  · exact lastWrite_hit _ _ _ _ _ _ (hd p hp)

end Verif.Cache
