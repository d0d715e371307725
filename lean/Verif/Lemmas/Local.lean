import Verif.Spec.Local
import Verif.Lemmas.CachePath
/-
  Lemmas on the files as the validator reads them.
-/
set_option autoImplicit false

namespace Verif.Cache
open Path SyncSpec LocalSpec
open Tal (hasPrefix rsyncScheme)

theorem replaceAll_none (old new : Bytes) : ∀ (n : Nat) (s : Bytes), ¬ old <:+: s → replaceAll old new n s = s
  | 0, s, _ => by simp [replaceAll]
  | n + 1, [], _ => by simp [replaceAll]
  | n + 1, b :: r, h => by
    have h1 : hasPrefix (b :: r) old = false := by
      rw [Bool.eq_false_iff]
      intro hp
      exact h ((hasPrefix_iff _ _).mp hp).isInfix
    have h2 : ¬ old <:+: r := fun hr => h (List.infix_cons_iff.mpr (.inr hr))
    simp [replaceAll, h1, replaceAll_none old new n r h2]

theorem clean_slash (base rest : Bytes) (hb : base ≠ []) : clean (withSlash base ++ rest) = clean (base ++ 47 :: rest) := by
  unfold withSlash
  split
  · rename_i hl
    obtain ⟨b, rfl⟩ : ∃ b, base = b ++ [47] := by
      refine ⟨base.dropLast, ?_⟩
      have := List.dropLast_concat_getLast hb
      rw [List.getLast?_eq_some_getLast hb] at hl
      simp at hl
      rw [hl] at this
      exact this.symm
    have e1 : b ++ [47] ++ rest = b ++ 47 :: rest := by simp
    have e2 : b ++ [47] ++ 47 :: rest = b ++ 47 :: ([] ++ 47 :: rest) := by simp
    have e3 : (b ++ 47 :: rest).head? = (b ++ 47 :: ([] ++ 47 :: rest)).head? := by cases b <;> rfl
    rw [e1, e2]
    unfold clean
    rw [← e3, splitSlash_append, splitSlash_append, splitSlash_append]
    simp [splitSlash, List.foldl_append, cleanStep]
  · simp

/-- The local path of a URI and the file that is written for it. -/
theorem local_target {base uri : Bytes} (hb : base ≠ []) (h : OneScheme uri) :
    clean (getLocalPath uri (rsyncMap base)) = target base uri := by
  obtain ⟨rest, rfl, hr⟩ := h
  have e : getLocalPath (rsyncScheme ++ rest) (rsyncMap base) = withSlash base ++ rest := by
    have hp : hasPrefix (rsyncScheme ++ rest) rsyncScheme = true := (hasPrefix_iff _ _).mpr ⟨rest, rfl⟩
    have hl : (rsyncScheme ++ rest).length = rest.length + 7 + 1 := by
      have : rsyncScheme.length = 8 := by decide
      simp [this]; omega
    have hd : (rsyncScheme ++ rest).drop rsyncScheme.length = rest := List.drop_left
    simp only [rsyncMap, getLocalPath, hl]
    have hc : ∃ b r, rsyncScheme ++ rest = b :: r := ⟨_, _, rfl⟩
    obtain ⟨b, r, hc⟩ := hc
    rw [hc] at hp hd ⊢
    have : ∀ n, replaceAll rsyncScheme (withSlash base) (n + 1) (b :: r) = withSlash base ++ replaceAll rsyncScheme (withSlash base) n rest := by
      intro n
      rw [replaceAll, hp, hd]
      rfl
    rw [this, replaceAll_none _ _ _ _ hr]
  rw [e, clean_slash _ _ hb, target, joinPath_ne _ _ hb]
  rfl

/-- A successful write is read back. -/
theorem write_read {os : OS} {base : Bytes} (hb : base ≠ []) {fs fs' : FS} {url d : Bytes}
    (h : writeRsyncFile os base fs url d = .ok (fs', true)) (hu : OneScheme url) :
    fs'.read (getLocalPath url (rsyncMap base)) = some d := by
  obtain ⟨_, fs1, h1, h2⟩ := write_spec h
  rcases h2 with ⟨_, _, h2⟩ | ⟨_, h2⟩
  · simp at h2
  · obtain ⟨e1, _, e3, _⟩ := writeFile_spec h2
    obtain ⟨e4, e5⟩ := e3 rfl
    unfold FS.read
    rw [local_target hb hu]
    have : fs'.isDir (target base url) = false := by
      unfold FS.isDir at e5 ⊢
      rw [e1]; exact e5
    simp [this, e4]

/-- Directories stay. -/
theorem dirs_later {os : OS} {tool : FS → Bytes → P → FS} {base : Bytes} (hk : KeepsDirs tool) {fs fs' : FS}
    (h : Later os tool base fs fs') : ∀ p, p ∈ fs.dirs → p ∈ fs'.dirs := by
  induction h with
  | same => exact fun _ h => h
  | write url data b _ hw ih =>
    intro p hp
    have hp := ih p hp
    obtain ⟨_, fs1, h1, h2⟩ := write_spec hw
    have h3 : p ∈ fs1.dirs := by
      unfold FS.mkdirAll at h1
      split at h1
      · simp at h1; subst h1; simp [hp]
      · simp at h1
    rcases h2 with ⟨_, rfl, _⟩ | ⟨_, h2⟩
    · exact h3
    · rw [(writeFile_spec h2).1]; exact h3
  | rsync url b _ hr ih =>
    intro p hp
    have hp := ih p hp
    unfold fetchRsync at hr
    split at hr
    · split at hr
      · simp at hr; obtain ⟨rfl, _⟩ := hr; exact hp
      · rename_i fs1 h1
        simp at hr
        obtain ⟨rfl, _⟩ := hr
        apply hk
        unfold FS.mkdirAll at h1
        split at h1
        · simp at h1; subst h1; simp [hp]
        · simp at h1
    · simp at hr
    · simp at hr
    · simp at hr

theorem isDir_later {os : OS} {tool : FS → Bytes → P → FS} {base : Bytes} (hk : KeepsDirs tool) {fs fs' : FS}
    (h : Later os tool base fs fs') {p : P} (hp : fs.isDir p = true) : fs'.isDir p = true := by
  unfold FS.isDir at hp ⊢
  simp only [Bool.or_eq_true] at hp ⊢
  rcases hp with hp | hp
  · exact .inl hp
  · right
    simp at hp ⊢
    exact dirs_later hk h p hp

/-- A directory that was made is there. -/
theorem mkdir_isDir {os : OS} {fs fs1 : FS} {p : P} (h : fs.mkdirAll os p = some fs1) : fs1.isDir p = true := by
  unfold FS.mkdirAll at h
  split at h
  · simp at h; subst h
    unfold FS.isDir
    simp only [Bool.or_eq_true]
    right
    simp only [List.contains_iff_mem, List.mem_append]
    left
    unfold ancestors
    simp only [List.mem_map, List.mem_range]
    exact ⟨p.comps.length, by omega, by simp⟩
  · simp at h

/-- A write to a directory fails. -/
theorem write_dir {os : OS} {base : Bytes} {fs fs' : FS} {url d : Bytes} {b : Bool}
    (h : writeRsyncFile os base fs url d = .ok (fs', b)) (hd : fs.isDir (target base url) = true) : b = false := by
  obtain ⟨_, fs1, h1, h2⟩ := write_spec h
  rcases h2 with ⟨_, _, h2⟩ | ⟨_, h2⟩
  · exact h2
  · cases b with
    | false => rfl
    | true =>
      have := ((writeFile_spec h2).2.2.1 rfl).2
      have h3 : fs1.isDir (target base url) = true := by
        unfold FS.mkdirAll at h1
        split at h1
        · simp at h1; subst h1
          unfold FS.isDir at hd ⊢
          simp only [Bool.or_eq_true] at hd ⊢
          rcases hd with hd | hd
          · exact .inl hd
          · right; simp at hd ⊢; exact .inr hd
        · simp at h1
      rw [h3] at this; simp at this

/-- The directory of a module. -/
theorem module_dir {base host module : Bytes} (hb : base ≠ []) (h1 : (47 : UInt8) ∉ host) (h2 : (47 : UInt8) ∉ module)
    (h3 : host ≠ dotdot) (h4 : module ≠ dotdot) :
    rsyncDir base (moduleURI host module) = .ok ⟨(clean base).rooted, (clean base).comps ++ keep [host, module]⟩ := by
  have e : moduleURI host module = rsyncScheme ++ (host ++ 47 :: module) := by simp [moduleURI]
  have hp : hasPrefix (moduleURI host module) rsyncScheme = true := (hasPrefix_iff _ _).mpr (e ▸ ⟨_, rfl⟩)
  have hs : splitSlash (host ++ 47 :: module) = [host, module] := by
    rw [splitSlash_append, splitSlash_plain _ h1, splitSlash_plain _ h2]; rfl
  have hd : (moduleURI host module).drop 8 = host ++ 47 :: module := by
    rw [e]
    exact List.drop_left (l₁ := rsyncScheme)
  unfold rsyncDir extractFilePath
  simp only [isRsyncURL, hp, if_true, trim_rsync hp, hd]
  rw [joinPath_ne _ _ hb, clean_append _ _ hb]
  · rw [hs]
  · rw [hs]; intro c hc; simp at hc; rcases hc with rfl | rfl <;> assumption

end Verif.Cache
