import Verif.Lemmas.Crash
import Verif.Props.EndToEnd
/-
  Property theorems for crashes of the exploration: C95.
-/
set_option autoImplicit false

namespace Verif.Props
open Pki Manager ManagerSpec CrashSpec

/-- The start of an exploration: TAL files, with a new validator. -/
def startOf (roots : List PKIFile) : M := (M.new V.new).putFiles roots

theorem cinv_rounds {W : World} (hW : HarmlessWorld W) {cfg : Cfg} {m m' : M} (h : CrashInv W m) (hr : Rounds W cfg m m') : CrashInv W m' := by
  induction hr with
  | here => exact h
  | round m1 m2 _ hs ih => exact (step_spec hW cfg ih).1 m2 hs

theorem rounds_first {W : World} {cfg : Cfg} {m m1 m' : M} (h1 : m.exploreStep cfg W = .ok m1) (h : Rounds W cfg m1 m') :
    Rounds W cfg m m' := by
  induction h with
  | here => exact .round m m1 .here h1
  | round a b _ hs ih => exact .round a b ih hs

theorem drain_panic {W : World} {cfg : Cfg} : ∀ (fuel : Nat) (m : M) (c : Nat), drain cfg W fuel m c = .panic →
    ∃ m1, Rounds W cfg m m1 ∧ m1.queue ≠ [] ∧ m1.exploreStep cfg W = .panic := by
  intro fuel
  induction fuel with
  | zero => intro m c h; simp [drain] at h
  | succ n ih =>
    intro m c h
    unfold drain at h
    split at h
    · simp at h
    · rename_i hq
      rcases Go.bind_eq_panic.mp h with h | ⟨m1, h1, h⟩
      · exact ⟨m, .here, by rw [hq]; simp, h⟩
      · obtain ⟨m2, g1, g2, g3⟩ := ih m1 _ h
        exact ⟨m2, rounds_first h1 g1, g2, g3⟩

theorem drain_panic_rounds {W : World} {cfg : Cfg} {m m1 : M} (h : Rounds W cfg m m1)
    (hp : ∃ fuel, ∀ c, drain cfg W fuel m1 c = .panic) : ∃ fuel, ∀ c, drain cfg W fuel m c = .panic := by
  induction h with
  | here => exact hp
  | round a b _ hs ih =>
    apply ih
    obtain ⟨fuel, hf⟩ := hp
    refine ⟨fuel + 1, fun c => ?_⟩
    unfold drain
    split
    · rename_i hq
      unfold M.exploreStep at hs
      rw [hq] at hs
      simp at hs
    · rw [hs, Go.ok_bind]; exact hf _

/-- **C95, the only crash.** An exploration that starts from TAL files, in either mode and with or without a log, over octets that the
    decoders take without a panic and without nil prefixes, panics only in a round that takes a revocation list whose issuer's key the
    validator does not know. -/
theorem C95_only_unknown_issuer_partial (W : World) (hW : HarmlessWorld W) (cfg : Cfg) (roots : List PKIFile)
    (hroots : ∀ f ∈ roots, f.parent = none ∧ f.type = .tal) (fuel : Nat) (h : (startOf roots).explore cfg W fuel = .panic) :
    ∃ m fid rest f, Rounds W cfg (startOf roots) m ∧ m.queue = fid :: rest ∧ m.files[fid]? = some f ∧ Culprit cfg W m fid f := by
  unfold M.explore at h
  rw [exploreLoop_drain] at h
  obtain ⟨m, h1, h2, h3⟩ := drain_panic _ _ _ h
  have hc := cinv_rounds hW (cinv_roots W roots hroots) h1
  rcases (step_spec hW cfg hc).2 h3 with h4 | ⟨fid, rest, f, h4, h5, h6⟩
  · exact (h2 h4).elim
  · exact ⟨m, fid, rest, f, h1, h4, h5, h6⟩

/-- **C95, exactly, in manifest mode.** The exploration panics if and only if it comes to a revocation list that is delivered (and passes
    the check of the hash) and whose issuer's key the validator does not know. -/
theorem C95_exact_partial (W : World) (hW : HarmlessWorld W) (cfg : Cfg) (hm : cfg.notMFT = false) (roots : List PKIFile)
    (hroots : ∀ f ∈ roots, f.parent = none ∧ f.type = .tal) :
    (∃ fuel, (startOf roots).explore cfg W fuel = .panic) ↔
    ∃ m fid rest f data, Rounds W cfg (startOf roots) m ∧ m.queue = fid :: rest ∧ m.files[fid]? = some f ∧ f.type = .crl ∧
      Comes cfg W m fid f data ∧ OfUnknownIssuer W.env m.v data := by
  constructor
  · rintro ⟨fuel, h⟩
    obtain ⟨m, fid, rest, f, h1, h2, h3, h4⟩ := C95_only_unknown_issuer_partial W hW cfg roots hroots fuel h
    rcases h4 with ⟨_, h5, data, h6, h7⟩ | ⟨h5, _⟩
    · exact ⟨m, fid, rest, f, data, h1, h2, h3, h5, h6, h7⟩
    · rw [hm] at h5; simp at h5
  · rintro ⟨m, fid, rest, f, data, h1, h2, h3, h4, h5, h6⟩
    have hc := cinv_rounds hW (cinv_roots W roots hroots) h1
    have hp := step_culprit hc h2 h3 h4 h5 h6
    obtain ⟨fuel, hf⟩ := drain_panic_rounds h1 (m1 := m) ⟨1, fun c => by unfold drain; rw [h2]; simp only [hp]; rfl⟩
    exact ⟨fuel, by unfold M.explore; rw [exploreLoop_drain]; exact hf 0⟩

/-! The repository of C78, with a revocation list on its manifest beside the ROA. The list names the key `k`. -/

def nL : Bytes := tx "x.crl"

def envK (k : Bytes) : Env := { envE with
  parseMft := fun d => if d = [10] then .ok (mkMft [10] [1] [(nX, [7]), (nL, [9])]) else .err ""
  parseCRL := fun d => if d = [9] then .ok (mkCRL k [77]) else .err "" }

def worldK (k : Bytes) : World := { worldE with
  env := envK k
  getFile := fun n p f => if p = dirR ++ 47 :: nL then .found [9] (some [9]) else worldE.getFile n p f }

def rootE : PKIFile := ⟨none, [], [65], .tal, true, none⟩
def cfgK : Cfg := ⟨false, false, true, true, true, false⟩

/-- The hypotheses hold of this repository. -/
theorem harmlessK (k : Bytes) : HarmlessWorld (worldK k) := by
  have key : ∀ data, (data = tal3 ∨ data = [1] ∨ data = [10] ∨ data = [7] ∨ data = [9]) → Harmless (envK k) data := by
    intro data hd
    have h1 : Tal.decodeTAL (envK k).asn data ≠ .panic := by
      show Tal.decodeTAL toyAsn data ≠ .panic
      rcases hd with rfl | rfl | rfl | rfl | rfl <;> decide +kernel
    refine ⟨h1, ?_, ?_, ?_, ?_, ?_, ?_, ?_⟩
    · simp only [envK, envE]; split <;> simp
    · simp only [envK, envE, env2]; split <;> simp
    · simp only [envK]; split <;> simp
    · simp only [envK]; split <;> simp
    · intro c h
      simp only [envK, envE] at h
      split at h
      · simp at h; subst h
        simp [NoNil, TalSpec.CertKey, taE, mkCert, net10]
      · simp at h
    · intro p h
      simp only [envK, envE, env2] at h
      split at h
      · simp at h; subst h
        simp [NoNil, mkCert, net10_1]
      · simp at h
    · intro m h
      simp only [envK] at h
      split at h
      · simp at h; subst h
        simp [NoNil, mkMft, mkCert]
      · simp at h
  refine ⟨?_, ?_⟩
  · intro n path f data sha h
    apply key
    simp only [worldK, worldE] at h
    repeat' split at h
    all_goals simp at h
    all_goals simp [← h.1]
  · intro n f c hc
    simp [worldK, worldE] at hc

/-- With a known issuer the exploration ends, also without a log, and publishes the ROA. -/
example : (∀ f ∈ [rootE], f.parent = none ∧ f.type = .tal) ∧ isOk ((startOf [rootE]).explore cfgK (worldK [1]) 20) = true := by
  exact ⟨by simp [rootE], by decide +kernel⟩

/-- **C95 is violated.** One publication point can stop the whole validation: the same repository, with a revocation list (of the right
    hash) that names a key that nobody has, makes the exploration panic. -/
theorem C95_violated_unknown_issuer : HarmlessWorld (worldK [42]) ∧ (startOf [rootE]).explore cfgK (worldK [42]) 20 = .panic :=
  ⟨harmlessK _, by decide +kernel⟩

def isPanic {α : Type} : Go α → Bool
  | .panic => true
  | _ => false

/-- The validation of all TALs goes down with it, also the TALs before it and after it. -/
theorem C95_violated_validation : EndToEnd.mainValidation flE [] 1000 [runE, ⟨[65], worldK [42], 10, id, fun _ => .refl _, fun _ => .fail⟩, runE] =
    .panic := by
  have h : isPanic (EndToEnd.mainValidation flE [] 1000
    [runE, ⟨[65], worldK [42], 10, id, fun _ => .refl _, fun _ => .fail⟩, runE]) = true := by decide +kernel
  revert h
  cases EndToEnd.mainValidation flE [] 1000 [runE, ⟨[65], worldK [42], 10, id, fun _ => .refl _, fun _ => .fail⟩, runE] <;>
    simp [isPanic]

/-- **C95 is violated at the start, too.** A start from a certificate file in place of a TAL (the commands never do so, the library
    allows it) is enough: the revocation list of the trust anchor's own distribution point has no file above its parent. -/
theorem C95_violated_certificate_root : (startOf [⟨none, [], tx "rsync://h/a.cer", .cer, true, none⟩]).explore cfgK
    { worldK [1] with
      env := { envK [1] with parseCert := fun d => if d = [1] then .ok { taE with crlDPs := [dirR ++ 47 :: nL] } else .err "" } } 20 = .panic := by
  decide +kernel

end Verif.Props
