import Verif.Spec.Api
import Verif.Spec.BerLax
import Verif.Props.BerLax
import Verif.Props.Local
import Verif.Props.CompleteLine
/-
  Property theorems for files read over the API: C121.
-/
set_option autoImplicit false

namespace Verif.Props
open Api ApiSpec Manager ManagerSpec Pki PkiSpec BerSpec EndToEnd
open BerLax (Breaks)

/-! ## C121 — files read over the API -/

/-- **C121, files.** A file other than a TAL comes from the resource with its computed path: in DER, if the resource starts with a BER
    encoding of a value; if the server has no such resource the answer is an error. A TAL is read from disk as it is. -/
theorem C121_file (cl : Client) (files : List PKIFile) (f : PKIFile) :
    (f.type ≠ .tal → cl.resource (f.computePath files) = none → Api.getFile cl files f = .ok .fail) ∧
    (f.type ≠ .tal → ∀ t bs rest, BerEnc t bs → cl.resource (f.computePath files) = some (bs ++ rest) →
      Api.getFile cl files f = .ok (.found (der t) none)) ∧
    (f.type = .tal → (∀ d, cl.readFile f.path = some d → Api.getFile cl files f = .ok (.found d none)) ∧
      (cl.readFile f.path = none → Api.getFile cl files f = .ok .fail)) := by
  refine ⟨?_, ?_, ?_⟩
  · intro ht h
    simp [Api.getFile, Api.fetchFile, ht, h]
  · intro ht t bs rest hb h
    simp [Api.getFile, Api.fetchFile, ht, h, C01_ber_to_der t bs rest hb]
  · intro ht
    exact ⟨fun d h => by simp [Api.getFile, ht, h], fun h => by simp [Api.getFile, ht, h]⟩

/-- **C121, crashes.** Reading a file over the API ends the process exactly when the server gives, for a file other than a TAL, octets that
    are not empty and break off where an identifier, a length or a part of a value in indefinite form is being read. -/
theorem C121_crash (cl : Client) (files : List PKIFile) (f : PKIFile) :
    Api.getFile cl files f = .panic ↔ f.type ≠ .tal ∧ ∃ d, cl.resource (f.computePath files) = some d ∧ d ≠ [] ∧ Breaks d := by
  unfold Api.getFile Api.fetchFile
  by_cases ht : f.type = .tal
  · simp only [ht, if_true]
    cases cl.readFile f.path <;> simp
  · simp only [ht, if_false]
    cases hr : cl.resource (f.computePath files) with
    | none => simp
    | some d =>
      have := C03_exact d
      cases hb : Ber.BER2DER d with
      | ok x => rw [hb] at this; simp [hb] at this ⊢; exact fun _ => this
      | err x => rw [hb] at this; simp [hb] at this ⊢; exact fun _ => this
      | panic => rw [hb] at this; simp [hb] at this ⊢; exact ⟨ht, this⟩
      | diverge => rw [hb] at this; simp [hb] at this ⊢; exact fun _ => this

theorem recvLoop_ok {repo : Bytes} : ∀ {l : List (Bytes × Bytes)} {calls : List Call}, recvLoop repo l = .ok calls →
    List.Forall₂ (HandedOver repo) l calls ∧ ∀ c ∈ calls, c.sha = none
  | [], calls, h => by simp [recvLoop] at h; subst h; simp
  | (path, data) :: rest, calls, h => by
    unfold recvLoop at h
    obtain ⟨d, hd, h⟩ := Go.bind_eq_ok.mp h
    obtain ⟨t, ht, h⟩ := Go.bind_eq_ok.mp h
    simp only [Go.pure_def, Go.ok.injEq] at h
    subst h
    obtain ⟨h1, h2⟩ := recvLoop_ok ht
    obtain ⟨e1, e2, e3, e4, _⟩ := C81_types path
    refine ⟨.cons ⟨rfl, rfl, rfl, rfl, ?_, ?_, e1, e2, e3, e4⟩ h1, ?_⟩
    · intro t' bs rest' hb hr
      simp only at hr
      subst hr
      simp [conv, C01_ber_to_der t' bs rest' hb] at hd
      exact hd.symm
    · intro e he
      simp only at he
      simp [conv, he] at hd
      exact hd
    · intro c hc
      rcases List.mem_cons.mp hc with rfl | hc
      · rfl
      · exact h2 c hc

/-- **C121, repositories.** The callback gets exactly the resources of the stream, in its order. -/
theorem C121_repository (cl : Client) (f : PKIFile) (l : List (Bytes × Bytes)) (fin : Bool) (hl : cl.repository f.repo = some (l, fin))
    (calls : List Call) (ok : Bool) (h : Api.getRepository cl f = .ok (calls, ok)) : List.Forall₂ (HandedOver f.repo) l calls := by
  unfold Api.getRepository at h
  rw [hl] at h
  obtain ⟨c, hc, h⟩ := Go.bind_eq_ok.mp h
  simp only [Go.pure_def, Go.ok.injEq, Prod.mk.injEq] at h
  rw [← h.1]
  exact (recvLoop_ok hc).1

/-- **C121 is violated: a broken stream.** That the stream broke off is never noticed: the result is the same as for a stream that ended
    there regularly, without an error. -/
theorem C121_violated_broken_stream (cl cl' : Client) (f : PKIFile) (l : List (Bytes × Bytes)) (hl : cl.repository f.repo = some (l, false))
    (hl' : cl'.repository f.repo = some (l, true)) : Api.getRepository cl f = Api.getRepository cl' f ∧
      ∀ calls ok, Api.getRepository cl f = .ok (calls, ok) → ok = true := by
  unfold Api.getRepository
  rw [hl, hl']
  refine ⟨rfl, ?_⟩
  intro calls ok h
  obtain ⟨c, _, h⟩ := Go.bind_eq_ok.mp h
  simp only [Go.pure_def, Go.ok.injEq, Prod.mk.injEq] at h
  exact h.2.symm

/-! ### Hashes -/

theorem overApi_sha {cl : Client} {W : World} (h : OverApi cl W) (n : Nat) (m : M) (i : Nat) (f : PKIFile) (hf : m.files[i]? = some f) (d : Bytes)
    (s : Option Bytes) (hg : W.getFile n (m.pathOf i) f = .found d s) : s = none := by
  have hp : m.pathOf i = f.computePath m.files := by simp [M.pathOf, hf]
  have := h.file n m.files f
  rw [← hp, hg] at this
  unfold Api.getFile at this
  split at this
  · split at this
    · simp at this
    · simp at this; exact this.2.symm
  · split at this
    · simp at this; exact this.2.symm
    all_goals simp at this

theorem exploreStep_lax {cl : Client} {W : World} (h : OverApi cl W) (cfg : Cfg) (m : M) :
    m.exploreStep cfg W = m.exploreStep { cfg with strictHash := false } W := by
  unfold M.exploreStep
  split
  · rfl
  · rename_i fid rest hq
    split
    · rfl
    · rename_i f hf
      unfold M.handle
      simp only
      split
      · have hck : ∀ (m1 : M) (r : Fetch), (∀ d s, r = .found d s → s = none) →
            m1.checkHash cfg W f r = m1.checkHash { cfg with strictHash := false } W f r := by
          intro m1 r hr
          cases r with
          | fail => rfl
          | absent => rfl
          | found d s => rw [hr d s rfl]; rfl
        have hgn : ∀ (m1 : M), m1.files = m.files → ∀ d s, (m1.getNextFile cfg W fid f).2 = .found d s → s = none := by
          intro m1 hm d s hg
          unfold M.getNextFile at hg
          split at hg
          · simp at hg
          · split at hg
            · exact overApi_sha h _ m1 fid f (by rw [hm]; exact hf) d s hg
            · simp at hg
        rw [hck _ _ (hgn { m with queue := rest, trace := m.trace ++ [.taken fid] } rfl)]
        rfl
      · rfl

/-- **C121, hashes.** Over the API strict hash mode has no effect at all: an exploration ends in the same state with it as without it. -/
theorem C121_violated_no_hashes (cl : Client) (W : World) (h : OverApi cl W) (cfg : Cfg) (fuel : Nat) (m : M) :
    m.explore cfg W fuel = m.explore { cfg with strictHash := false } W fuel := by
  have key : ∀ (n : Nat) (m : M) (b : Bool) (count : Nat),
      exploreLoop cfg W n m b count = exploreLoop { cfg with strictHash := false } W n m b count := by
    intro n
    induction n with
    | zero => intro m b count; rfl
    | succ n ih =>
      intro m b count
      cases b with
      | false => rfl
      | true =>
        unfold exploreLoop
        rw [exploreStep_lax h cfg m]
        congr 1
        funext m1
        exact ih m1 _ _
  exact key _ _ _ _

/-! A server with the repository of Props/EndToEnd, each file wrapped as an octet string, so that it is BER; the manifest lists the hash
    `hash` for the ROA. -/

def clientW : Client where
  readFile := fun p => if p = [65] then some tal3 else none
  resource := fun p =>
    if p = tx "rsync://h/a.cer" then some [4, 1, 1]
    else if p = nM0 then some [4, 1, 10]
    else if p = dirR ++ 47 :: nX then some [4, 0x81, 1, 7]
    else none
  repository := fun p => if p = dirR then some ([(dirR ++ 47 :: nX, [4, 0x81, 1, 7])], false) else none

def envW (hash : Bytes) : Env := { envE with
  parseCert := fun d => envE.parseCert (d.drop 2)
  parseROA := fun d => envE.parseROA (d.drop 2)
  parseMft := fun d => if d = [4, 1, 10] then .ok (mkMft [10] [1] [(nX, hash)]) else .err "" }

/-- The exploration over this server. -/
def worldW (hash : Bytes) : World :=
  ⟨envW hash, fun _ p f => match Api.getFile clientW [] { f with parent := none, path := if f.type = .tal then f.path else p } with
    | .ok r => r
    | _ => .fail, fun _ f => match Api.getRepository clientW f with
    | .ok r => r
    | _ => ([], false), fun _ => 50, fun _ => 50⟩

def runW (hash : Bytes) : TalRun := { runE with world := worldW hash }
def doneW (hash : Bytes) : M := match exploreTal flE (runW hash) with | .ok m => m | _ => M.new V.new

theorem clientW_fetch (p : Bytes) : (∃ d, Api.fetchFile clientW p = .ok d) ∨ ∃ e, Api.fetchFile clientW p = .err e := by
  unfold Api.fetchFile clientW
  simp only
  split
  · exact .inr ⟨_, rfl⟩
  · rename_i d h
    split at h
    · cases h; exact .inl ⟨[4, 1, 1], by decide +kernel⟩
    · split at h
      · cases h; exact .inl ⟨[4, 1, 10], by decide +kernel⟩
      · split at h
        · cases h; exact .inl ⟨[4, 1, 7], by decide +kernel⟩
        · cases h

theorem overApiW (hash : Bytes) : OverApi clientW (worldW hash) := by
  constructor
  · intro n files f
    unfold worldW
    simp only
    by_cases ht : f.type = .tal
    · simp only [Api.getFile, ht, if_true]
      cases clientW.readFile f.path <;> rfl
    · simp only [Api.getFile, ht, if_false, PKIFile.computePath, Option.bind_none]
      rcases clientW_fetch (f.computePath files) with ⟨d, h⟩ | ⟨e, h⟩ <;> (unfold PKIFile.computePath at h; rw [h])
  · intro n f
    unfold worldW
    simp only
    have : ∃ r, Api.getRepository clientW f = .ok r := by
      unfold Api.getRepository clientW
      simp only
      split
      · exact ⟨_, rfl⟩
      · rename_i l b h
        split at h
        · simp only [Option.some.injEq, Prod.mk.injEq] at h
          obtain ⟨rfl, _⟩ := h
          have : conv [4, 0x81, 1, 7] = .ok [4, 1, 7] := by decide +kernel
          simp [recvLoop, this]
        · cases h
    obtain ⟨r, hr⟩ := this
    rw [hr]

/-- **C121 is violated: substituted files.** In strict manifest and strict hash mode, and whatever the hash function is: there are
    explorations over the API that take up a ROA, under a manifest that lists another hash for its file, and list the ROA as valid. -/
theorem C121_violated_hash (sha256 : Bytes → Bytes) : ∃ (cl : Client) (fl : Flags) (run : TalRun) (m : M) (i : Nat) (f : PKIFile)
    (data hash : Bytes) (roa : ROA), OverApi cl run.world ∧ fl.useManifest = true ∧ fl.strictManifests = true ∧ fl.strictHash = true ∧
    exploreTal fl run = .ok m ∧ m.files[i]? = some f ∧ f.manifestHash = some hash ∧ cl.resource (m.pathOf i) = some data ∧
    sha256 data ≠ hash ∧ (∃ d, Event.added i d none ∈ m.trace ∧ decodeROA run.world.env d = .ok roa) ∧ CompleteSpec.Listed m.v roa := by
  have hex : ∀ hash, isOk (exploreTal flE (runW hash)) = true → exploreTal flE (runW hash) = .ok (doneW hash) := by
    intro hash hok
    unfold doneW
    cases hh : exploreTal flE (runW hash) with
    | ok m => rfl
    | err _ => rw [hh] at hok; simp [isOk] at hok
    | panic => rw [hh] at hok; simp [isOk] at hok
    | diverge => rw [hh] at hok; simp [isOk] at hok
  by_cases h7 : sha256 [4, 0x81, 1, 7] = [7]
  · exact ⟨clientW, flE, runW [9], doneW [9], 3, (doneW [9]).files[3]'(by decide +kernel), [4, 0x81, 1, 7], [9], roaE, overApiW _, rfl, rfl, rfl,
      hex _ (by decide +kernel), by rfl, by rfl, by rfl, by rw [h7]; decide, ⟨[4, 1, 7], by decide +kernel, by decide +kernel⟩,
      ⟨5, _, by rfl, by rfl, by rfl⟩⟩
  · exact ⟨clientW, flE, runW [7], doneW [7], 3, (doneW [7]).files[3]'(by decide +kernel), [4, 0x81, 1, 7], [7], roaE, overApiW _, rfl, rfl, rfl,
      hex _ (by decide +kernel), by rfl, by rfl, by rfl, h7, ⟨[4, 1, 7], by decide +kernel, by decide +kernel⟩,
      ⟨5, _, by rfl, by rfl, by rfl⟩⟩

/-- Non-vacuity of the theorems above: a ROA in BER with a long form of length, served by this client; a stream that breaks off. -/
example : BerEnc (.prim [4] [7]) [4, 0x81, 1, 7] ∧ clientW.resource (dirR ++ 47 :: nX) = some ([4, 0x81, 1, 7] ++ []) ∧
    clientW.repository dirR = some ([(dirR ++ 47 :: nX, [4, 0x81, 1, 7])], false) ∧
    Api.getRepository clientW ⟨none, dirR, nM0, .mft, false, none⟩ =
      .ok ([⟨⟨none, dirR, dirR ++ 47 :: nX, .roa, false, none⟩, [4, 1, 7], none, false⟩], true) :=
  ⟨.prim [4] [7] [0x81, 1] ⟨4, [], rfl, by decide, .inl ⟨by decide, rfl⟩⟩ (.long 1 [] (by decide) (by decide) (by decide)),
    by rfl, by rfl, by decide +kernel⟩

/-- A server can end the process of its reader with one octet. -/
example : Api.getFile { clientW with resource := fun _ => some [0x1f] } [] ⟨none, [], tx "rsync://h/a.cer", .cer, true, none⟩ = .panic := by
  decide +kernel

end Verif.Props
