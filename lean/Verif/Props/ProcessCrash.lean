import Verif.Props.Process
import Verif.Props.Crash
/-
  Property theorems for crashes of the whole program octorpki: C102.
-/
set_option autoImplicit false

namespace Verif.Props
open Pki PkiSpec Manager ManagerSpec EndToEnd Process ProcessSpec Fetch LocalSpec Cache Path EndSpec
open Tal (rsyncScheme)

theorem namesOf_total {v : V} (h : ∀ k i, v.validObjects.get k = some i → ∃ c, v.certOf i = some c) : ∀ (ks : List Bytes),
    (∀ k ∈ ks, (v.validObjects.get k).isSome = true) → ∃ l, namesOf v ks = .ok l := by
  intro ks
  induction ks with
  | nil => intro _; exact ⟨[], rfl⟩
  | cons k ks ih =>
    intro hk
    obtain ⟨l, hl⟩ := ih (fun k h => hk k (by simp [h]))
    obtain ⟨i, hi⟩ := Option.isSome_iff_exists.mp (hk k (by simp))
    obtain ⟨c, hc⟩ := h k i hi
    rw [certOf_eq] at hc
    unfold V.dataOf at hc
    obtain ⟨r, hr, hd⟩ := Option.map_eq_some_iff.mp hc
    unfold namesOf
    simp only [hi, Option.bind_some, hr, hd, hl]
    split
    · exact ⟨_, rfl⟩
    · exact ⟨_, rfl⟩

theorem collectKeys_total {W : World} {f0 : PKIFile} {m : M} (he : EInv W f0 m) : ∀ (ks : List Bytes) (acc : Map Tal.RPKITAL),
    (∀ k ∈ ks, (m.v.tals.get k).isSome = true) → ∃ acc', Refresh.collectKeys m ks acc = .ok acc' := by
  intro ks
  induction ks with
  | nil => intro acc _; exact ⟨acc, rfl⟩
  | cons k ks ih =>
    intro acc hk
    obtain ⟨j, hj⟩ := Option.isSome_iff_exists.mp (hk k (by simp))
    obtain ⟨t, ht, _⟩ := he.tals k j hj
    unfold V.dataOf at ht
    obtain ⟨r, hr, hd⟩ := Option.map_eq_some_iff.mp ht
    have hcore : m.v.core j = some (.tal t, r.type, r.file) := by unfold V.core; rw [hr]; simp [hd]
    obtain ⟨fid, _, _, _, f, hf, _, _, hfile⟩ := he.typed j _ hcore
    have hfile : r.file = some fid := by
      rcases hfile with ⟨l, e⟩ | e
      · cases e
      · exact e
    unfold Refresh.collectKeys
    simp only [hj, Option.bind_some, hr, hd, hfile, hf]
    split
    · exact ih acc (fun k h => hk k (by simp [h]))
    · exact ih _ (fun k h => hk k (by simp [h]))

theorem collect_total {W : World} {f0 : PKIFile} {m : M} (he : EInv W f0 m) (acc : Map Tal.RPKITAL) :
    ∃ acc', Refresh.collect m acc = .ok acc' :=
  collectKeys_total he _ acc (fun _ hk => mem_keysOf.mp hk)

theorem roaOf_total' {W : World} {f0 : PKIFile} {m : M} (h : EInv W f0 m) {r : TalRun}
    (hre : ∀ i f d s, m.files[i]? = some f → Event.added i d s ∈ m.trace → r.reread f ≠ .absent) {k : Bytes}
    (hk : (m.v.validROA.get k).isSome = true) : ∃ roa, roaOf r m k = .ok roa := by
  obtain ⟨j, hj⟩ := Option.isSome_iff_exists.mp hk
  obtain ⟨ops, o1, _, o3⟩ := h.run
  obtain ⟨roa, ⟨res, hres, hdata⟩, _⟩ := C22_roa_backed W.env (AnchorOf W f0) m.v ⟨ops, o1, o3⟩ k j hj
  refine ⟨roa, ?_⟩
  unfold roaOf
  simp only [hj, hres, hdata]
  have : readAgain r m res.file = .ok () := by
    unfold readAgain
    split
    · rfl
    · rename_i i hi
      obtain ⟨f, d, s, hf, ht, _⟩ := (h.res j res hres).1 i hi
      simp only [hf]
      split
      · rename_i ha; exact (hre i f d s hf ht ha).elim
      · rfl
  rw [this]

/-- A file that was found is found again in the same cache. -/
theorem reread_found {S : Process.Setup} {fs : FS} {known known' : List Bytes} {m : M} {f : PKIFile} {d : Bytes} {s : Option Bytes}
    (h : Refresh.seek S.toSetup known fs (f.computePath m.files) f = .found d s) :
    ∃ d' s', reread S fs known' m f = .found d' s' := by
  obtain ⟨raw, hr, _⟩ := seek_found.mp h
  have : Refresh.seek S.toSetup known' fs (f.computePath m.files) { f with type := .tal } = .found raw (some (S.sha256 raw)) :=
    seek_found.mpr ⟨raw, hr, rfl, rfl⟩
  exact ⟨raw, some (S.sha256 raw), by rw [← this]; rfl⟩

theorem getRsyncURI_scheme (sha1 : Bytes → Bytes) (t : Tal.RPKITAL) : rsyncScheme <+: t.getRsyncURI sha1 := by
  have loop : ∀ (us : List Bytes) (o : Bytes), (Tal.rsyncLoop us o).1 = [] ∨ rsyncScheme <+: (Tal.rsyncLoop us o).1 := by
    intro us
    induction us with
    | nil => intro o; exact .inl rfl
    | cons u us ih =>
      intro o
      unfold Tal.rsyncLoop
      split
      · next h => exact .inr ((hasPrefix_iff _ _).mp h)
      · exact ih u
  unfold Tal.RPKITAL.getRsyncURI
  simp only
  split
  · exact ⟨_, by rw [List.append_assoc]; rfl⟩
  · rcases loop t.uri [] with h | h
    · contradiction
    · exact h

theorem moduleURI_scheme (host name : Bytes) : rsyncScheme <+: moduleURI host name := by
  unfold moduleURI
  exact ⟨host ++ 47 :: name, by simp⟩

theorem mainRsync_total {S : Process.Setup} {k : Process.Tick} : ∀ (us : List Bytes) (fs : FS), (∀ u ∈ us, rsyncScheme <+: u) →
    ∃ fs', mainRsync S k us fs = .ok fs' := by
  intro us
  induction us with
  | nil => intro fs _; exact ⟨fs, rfl⟩
  | cons u us ih =>
    intro fs h
    have hu : isRsyncURL u = true := by unfold isRsyncURL; exact (hasPrefix_iff _ _).mpr (h u (by simp))
    unfold mainRsync fetchRsync rsyncDir extractFilePath
    rw [if_pos hu]
    simp only
    split
    · exact ih _ (fun u hu => h u (by simp [hu]))
    · exact ih _ (fun u hu => h u (by simp [hu]))

theorem talLoop_total {S : Process.Setup} (hm : S.fl.useManifest = true)
    (hk : ∀ d c, S.env.parseCert d = .ok c → TalSpec.CertKey c.isRSA c.pubKey) {k : Process.Tick} {fs : FS} {handed : Bool} :
    ∀ (tals : List Bytes) (i : Nat) (acc : Map Tal.RPKITAL) (b : Bindings),
    (∀ n path, tals[n]? = some path → ∀ known, (handed = false → known = []) →
      ∃ m, exploreTal S.fl (Process.talRun S k fs known (i + n) path) = .ok m) →
    ∃ y, talLoop S k fs handed i tals acc b = .ok y := by
  intro tals
  induction tals with
  | nil => intro i acc b _; exact ⟨_, rfl⟩
  | cons path tals ih =>
    intro i acc b h
    obtain ⟨m, hx⟩ := h 0 path (by simp) (if handed = true then b.repos else []) (by intro e; simp [e])
    rw [Nat.add_zero] at hx
    obtain ⟨he, _⟩ := explore_einv S.fl hm _ hk m hx
    obtain ⟨acc1, ha⟩ := collect_total he acc
    obtain ⟨ops, o1, _, o3⟩ := he.run
    have hinv := reachable_inv (T := AnchorOf _ _) (⟨ops, o1, o3⟩ : Reachable _ _ m.v)
    obtain ⟨names, hn⟩ := namesOf_total (v := m.v) (fun k i hi => by
      obtain ⟨c, hc, _⟩ := hinv.obj k i (hinv.val k i hi); exact ⟨c, hc⟩) (k.order (2 * i + 2) (keysOf m.v.validObjects))
      (fun key hkey => mem_keysOf.mp ((k.perm _ _).mem_iff.mp hkey))
    obtain ⟨y, hy⟩ := ih (i + 1) acc1 (bindAll b names) (fun n p hp known hkn => by
      have := h (n + 1) p (by simpa using hp) known hkn
      rwa [show i + (n + 1) = i + 1 + n by omega] at this)
    refine ⟨((Process.talRun S k fs (if handed = true then b.repos else []) i path, m) :: y.1, y.2), ?_⟩
    unfold talLoop
    simp only [hx, ha, hn, hy, Go.ok_bind]
    rfl

/-- **C102, the glue does not crash.** Let the program have run any number of rounds, in manifest mode, and let the RRDP fetches and the downloads of certificates of trust
    anchors of the next round end. Then its rsync phase ends, whatever rsync does. If then the explorations end and, where the filter is on,
    find only well-formed VRPs, the round ends: none of the type assertions, map lookups and files read again between the phases crashes. -/
theorem C102_round_ends (S : Process.Setup) (hm : S.fl.useManifest = true)
    (hk : ∀ d c, S.env.parseCert d = .ok c → TalSpec.CertKey c.isRSA c.pubKey) (ticks : Nat → Process.Tick) (fs0 : FS) (file : Option Bytes) (n : Nat)
    (s : Process.St) (h : Process.after S ticks (.boot fs0 file) n = .ok s)
    (x : FS × Option Info × Option Bytes × Map Bytes × List (RrdpJob × Option Bytes)) (hx : doRRDP S (ticks n) s = .ok x)
    (t : FS × Map Bytes)
    (ht : Refresh.mainTAL S.toSetup (ticks n).http s.fetch ((ticks n).order 0 (keysOf s.fetch)) x.1 x.2.2.2.1 = .ok t) :
    ∃ fs, mainRsync S (ticks n) ((ticks n).order 1 (keysOf t.2)) t.1 = .ok fs ∧
      ((∀ i path, S.tals[i]? = some path → ∀ known, (s.handed = false → known = []) → ∃ m, exploreTal S.fl (Process.talRun S (ticks n) fs known i path) = .ok m ∧
          (S.fl.filter = true → ∀ v, ValidVrp [(Process.talRun S (ticks n) fs known i path, m)] v → OutSpec.GoodVrp v)) →
        ∃ s', Process.round S (ticks n) s = .ok s') := by
  have hsrc := (sourceInv S ticks fs0 file n s h).1
  obtain ⟨d1, _⟩ := doRRDP_spec hx
  obtain ⟨_, t2, _⟩ := mainTAL_jobs _ _ _ _ _ ht
  obtain ⟨fs, hfs⟩ := mainRsync_total (S := S) (k := ticks n) ((ticks n).order 1 (keysOf t.2)) t.1 (by
    intro u hu
    rw [((ticks n).perm _ _).mem_iff, mem_keysOf] at hu
    rcases t2 u hu with hu | ⟨_, _, t', _, _, _, rfl⟩
    · rw [d1 u] at hu
      split at hu
      · simp at hu
      · rcases hsrc.jobs u hu with ⟨_, _, _, host, name, _, rfl⟩ | ⟨_, _, _, _, t', _, _, _, rfl⟩
        · exact moduleURI_scheme host name
        · exact getRsyncURI_scheme _ t'
    · exact getRsyncURI_scheme _ t')
  refine ⟨fs, hfs, fun hexp => ?_⟩
  obtain ⟨⟨ms, acc, b⟩, hv⟩ := talLoop_total hm hk (handed := s.handed) S.tals 0 [] { s.b with jobs := t.2 }
    (fun i p hp known hkn => by
      rw [Nat.zero_add]
      exact (hexp i p hp known hkn).imp fun _ h => h.1)
  have hruns := talLoop_from hv
  simp only [Nat.zero_add] at hruns
  obtain ⟨ts, hts⟩ := exportTals_total (names := S.names) (n := S.tals.length) (ms := withReread S fs (if s.handed = true then b.repos else []) ms) 0 (by
    intro y hy
    obtain ⟨z, hz, rfl⟩ := List.mem_map.mp hy
    obtain ⟨i, known, path, hp, hkn, e, hex⟩ := hruns z hz
    obtain ⟨he, _⟩ := explore_einv S.fl hm z.1 (by rw [e]; exact hk) z.2 hex
    refine roasOf_total (fun key hkey => ?_)
    refine roaOf_total' he (r := { z.1 with reread := reread S fs (if s.handed = true then b.repos else []) z.2 }) ?_
      (mem_keysOf.mp ((z.1.perm _).mem_iff.mp hkey))
    intro j f d sh hf htr
    obtain ⟨f', n', hf', hget⟩ := he.fetch j d sh htr
    rw [hf] at hf'
    cases hf'
    have hpath : z.2.pathOf j = f.computePath z.2.files := by unfold M.pathOf; rw [hf]
    rw [e, hpath] at hget
    obtain ⟨d', s', hr⟩ := reread_found (S := S) (known' := if s.handed = true then b.repos else []) hget
    simp only
    rw [hr]
    simp)
  have hL : ∃ L, Out.generateROAList S.fl.filter (ticks n).now S.fl.validity ts = .ok L := by
    cases hfl : S.fl.filter with
    | false => exact ⟨_, rfl⟩
    | true =>
      obtain ⟨L, hL, _⟩ := C53_output_exact true (ticks n).now S.fl.validity ts (by
        intro v hv'
        rw [authorised_iff hts] at hv'
        obtain ⟨y, hy, hrest⟩ := hv'
        obtain ⟨z, hz, ez⟩ := List.mem_map.mp hy
        obtain ⟨i, known, path, hp, hkn, e', hex⟩ := hruns z hz
        obtain ⟨m', hm', hg⟩ := hexp i path hp known hkn
        rw [← e', hex] at hm'
        cases hm'
        cases ez
        exact hg hfl v ⟨_, List.mem_singleton.mpr rfl, hrest⟩)
      exact ⟨L, hL⟩
  obtain ⟨L, hL⟩ := hL
  unfold Process.round
  rw [hx, Go.ok_bind, ht, Go.ok_bind]
  simp only [hfs, hv, hts, hL, Go.ok_bind]
  exact ⟨_, rfl⟩

/-! ### Examples -/

/-- The program of the example of C101, started again over the cache that three rounds left. -/
def fsAgain : FS := match Process.after (setupP taP) (fun _ => tickP) bootP 3 with | .ok s => s.fs | _ => ⟨[], []⟩
def runAgain : TalRun := Process.talRun (setupP taP) tickP fsAgain [] 0 (tx "/tal")
def doneAgain : M := match exploreTal flE runAgain with | .ok m => m | _ => M.new V.new

theorem doneAgain_roas : ∀ j roa, At doneAgain.v j (.roa roa) → roa.asn = 7 ∧ roa.valids = [⟨⟨[10, 1, 0, 0], [255, 255, 0, 0]⟩, 24⟩] := by
  have key : ∀ r ∈ doneAgain.v.heap, (match r.data with
      | .roa roa => decide (roa.asn = 7 ∧ roa.valids = [⟨⟨[10, 1, 0, 0], [255, 255, 0, 0]⟩, 24⟩]) | _ => true) = true := by
    decide +kernel
  rintro j roa ⟨res, h1, h2⟩
  have := key res (List.mem_of_getElem? h1)
  rw [h2] at this
  simpa using this

/-- It meets the hypotheses of `C102_round_ends`, with a ROA found. -/
example : ∃ s x t fs, Process.after (setupP taP) (fun _ => tickP) (.boot fsAgain none) 0 = .ok s ∧ doRRDP (setupP taP) tickP s = .ok x ∧
    Refresh.mainTAL (setupP taP).toSetup tickP.http s.fetch (tickP.order 0 (keysOf s.fetch)) x.1 x.2.2.2.1 = .ok t ∧
    mainRsync (setupP taP) tickP (tickP.order 1 (keysOf t.2)) t.1 = .ok fs ∧
    (∀ i path, (setupP taP).tals[i]? = some path → ∀ known, (s.handed = false → known = []) →
      ∃ m, exploreTal (setupP taP).fl (Process.talRun (setupP taP) tickP fs known i path) = .ok m ∧
        ((setupP taP).fl.filter = true → ∀ v, ValidVrp [(Process.talRun (setupP taP) tickP fs known i path, m)] v → OutSpec.GoodVrp v)) ∧
    keysOf doneAgain.v.validROA = [[5]] := by
  refine ⟨_, _, _, fsAgain, rfl, rfl, rfl, rfl, ?_, by decide +kernel⟩
  intro i path hp known hkn
  cases hkn rfl
  have hi : i = 0 ∧ path = tx "/tal" := by
    cases i with
    | zero => simpa [setupP] using hp.symm
    | succ i => simp [setupP] at hp
  obtain ⟨rfl, rfl⟩ := hi
  have hok : isOk (exploreTal flE runAgain) = true := by decide +kernel
  have hex : exploreTal flE runAgain = .ok doneAgain := by
    unfold doneAgain
    cases hh : exploreTal flE runAgain with
    | ok m => rfl
    | err _ => rw [hh] at hok; simp [isOk] at hok
    | panic => rw [hh] at hok; simp [isOk] at hok
    | diverge => rw [hh] at hok; simp [isOk] at hok
  refine ⟨doneAgain, hex, fun _ => ?_⟩
  rintro v ⟨x, hx, k, j, roa, e, _, hat, he, rfl⟩
  simp at hx; subst hx
  obtain ⟨h1, h2⟩ := doneAgain_roas j roa hat
  rw [h2] at he
  simp at he; subst he
  refine ⟨?_, ?_, ?_, by simp, by simp, by simp [h1], by simp [h1]⟩
  · have := proper_net10_1
    simpa [net10_1] using this
  · have : ResSpec.IsMask 16 [255, 255, 0, 0] ∧ 2 ^ (8 * [255, 255, (0 : UInt8), 0].length - 16) ∣ BerSpec.beVal [10, 1, 0, 0] := by
      refine ⟨⟨by decide, by decide⟩, by decide⟩
    exact ⟨16, this.1, this.2⟩
  · rintro ⟨d, _, hd⟩
    simp [List.replicate] at hd

/-! ### Crashes -/

theorem panic_of_isPanic {α : Type} {g : Go α} (h : isPanic g = true) : g = .panic := by
  cases g <;> simp [isPanic] at h ⊢

/-- The RRDP server of the example, that holds `item` in its snapshot. -/
def rrdpP (item : Rrdp.Item) : Rrdp.World :=
  ⟨fun _ u => some u, fun d => if d = tx "https://h/n.xml" then some ⟨tx "S", 1, ⟨1, tx "s1", []⟩, []⟩ else none,
    fun d => if d = tx "s1" then some ([item], []) else none⟩
def tickRrdp (item : Rrdp.Item) : Process.Tick := { tickP with rrdp := fun _ => rrdpP item }

/-- **C102 is violated by an RRDP server.** The first two rounds end. The third asks the RRDP server that the certificate of the trust
    anchor names. With an honest snapshot the round ends; with one whose only file has a URI of another scheme, the program is over. -/
theorem C102_violated_rrdp_server :
    isOk (Process.after (setupP taRrdp) (fun _ => tickRrdp ⟨tx "rsync://h/r/x.roa", tx "AQ=="⟩) bootP 3) = true ∧
    isOk (Process.after (setupP taRrdp) (fun _ => tickRrdp ⟨tx "https://rsync://h/r/x.roa", tx "AQ=="⟩) bootP 2) = true ∧
    Process.after (setupP taRrdp) (fun _ => tickRrdp ⟨tx "https://rsync://h/r/x.roa", tx "AQ=="⟩) bootP 3 = .panic :=
  ⟨by decide +kernel, by decide +kernel, panic_of_isPanic (by decide +kernel)⟩

/-- The program with a file of RRDP positions, whose text is `null`: encoding/json makes a nil map of it, without an error. -/
def setupNull : Process.Setup := { setupP taRrdp with rrdpFile := true, codec := ⟨fun _ => tx "null", fun _ => (none, true)⟩ }

/-- **C102 is violated by the file of RRDP positions.** If its text is `null`, the program ends at the first RRDP fetch that succeeds; with the
    text `{}` it goes on. -/
theorem C102_violated_null_positions :
    isOk (Process.after { setupNull with codec := ⟨fun _ => tx "{}", fun _ => (some [], true)⟩ }
      (fun _ => { tickRrdp ⟨tx "rsync://h/r/x.roa", tx "AQ=="⟩ with readable := true }) (.boot bootP.fs (some (tx "{}"))) 3) = true ∧
    Process.after setupNull (fun _ => { tickRrdp ⟨tx "rsync://h/r/x.roa", tx "AQ=="⟩ with readable := true }) (.boot bootP.fs (some (tx "null"))) 3 =
      .panic :=
  ⟨by decide +kernel, panic_of_isPanic (by decide +kernel)⟩

end Verif.Props
