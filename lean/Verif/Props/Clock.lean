import Verif.Lemmas.Clock
import Verif.Props.Manager
/-
  C82: with a chosen time of validation, the wall clock has no influence.
-/
set_option autoImplicit false

namespace Verif.Props
open Pki PkiSpec Manager ManagerSpec

/-- The same world on another day: the same files, decoders and chosen time, another wall clock. -/
def atClock (W : World) (n1 n2 : Nat → Int) : World := { W with now1 := n1, now2 := n2 }

/-- The manifest is out of its dates by the clock of `W` at step `n`. -/
def OutOfDate (W : World) (n : Nat) (c : Mft) : Prop := W.now1 n > c.nextUpdate ∨ W.now2 n < c.thisUpdate

theorem runCalls_clock (W : World) (n1 n2 : Nat → Int) (fid : Nat) : ∀ (l : List Call) (m : M),
    runCalls (atClock W n1 n2) fid l m = runCalls W fid l m := by
  intro l
  induction l with
  | nil => intro m; rfl
  | cons c l ih =>
    intro m
    simp only [runCalls, ih]
    rfl

theorem handle_clock {W : World} {n1 n2 : Nat → Int} {cfg : Cfg} {m : M} {fid : Nat} {f : PKIFile}
    (h : ∀ m1 : M, m1.v = m.v → m1.clock = m.clock → cfg.strictHash = true → m1.checkExpired cfg (atClock W n1 n2) f = m1.checkExpired cfg W f) :
    m.handle cfg (atClock W n1 n2) fid f = m.handle cfg W fid f := by
  unfold M.handle
  split
  · have hg : m.getNextFile cfg (atClock W n1 n2) fid f = m.getNextFile cfg W fid f := rfl
    have hv : (m.getNextFile cfg W fid f).1.v = m.v ∧ (m.getNextFile cfg W fid f).1.clock = m.clock := by
      unfold M.getNextFile
      split
      · exact ⟨rfl, rfl⟩
      · split <;> exact ⟨rfl, rfl⟩
    simp only [hg]
    have hc : ∀ (m1 : M) (r : Fetch), m1.v = m.v → m1.clock = m.clock → m1.checkHash cfg (atClock W n1 n2) f r = m1.checkHash cfg W f r := by
      intro m1 r h1 h2
      unfold M.checkHash
      split
      · split
        · split
          · rename_i hs
            rw [h m1 h1 h2 hs]
          · rfl
        · rfl
      · rfl
    rw [hc _ _ hv.1 hv.2]
    rfl
  · unfold M.exploreRepo M.getNextRepository
    split
    · rfl
    · have : (atClock W n1 n2).getRepository = W.getRepository := rfl
      rw [this, runCalls_clock]

theorem loop_clock {W : World} {n1 n2 : Nat → Int} {cfg : Cfg} {I : M → Prop}
    (h1 : ∀ m, I m → m.exploreStep cfg (atClock W n1 n2) = m.exploreStep cfg W)
    (h2 : ∀ m m', I m → m.exploreStep cfg W = .ok m' → I m') : ∀ (fuel : Nat) (m : M) (more : Bool) (count : Nat), I m →
    exploreLoop cfg (atClock W n1 n2) fuel m more count = exploreLoop cfg W fuel m more count := by
  intro fuel
  induction fuel with
  | zero => intro m more count _; rfl
  | succ fuel ih =>
    intro m more count hi
    cases more with
    | false => rfl
    | true =>
      simp only [exploreLoop]
      rw [h1 m hi]
      cases hs : m.exploreStep cfg W with
      | ok m1 => simp only [Go.ok_bind]; exact ih m1 _ _ (h2 m m1 hi hs)
      | err e => rfl
      | panic => rfl
      | diverge => rfl

theorem step_clock {W : World} {n1 n2 : Nat → Int} {cfg : Cfg} {m : M}
    (h : ∀ (m1 : M) (f : PKIFile), m1.v = m.v → m1.clock = m.clock → cfg.strictHash = true →
      m1.checkExpired cfg (atClock W n1 n2) f = m1.checkExpired cfg W f) :
    m.exploreStep cfg (atClock W n1 n2) = m.exploreStep cfg W := by
  unfold M.exploreStep
  split
  · rfl
  · split
    · rfl
    · rename_i fid rest hq _ f hf
      simp only
      rw [handle_clock (m := { m with queue := rest, trace := m.trace ++ [.taken fid] }) (fun m1 e1 e2 e3 => h m1 f e1 e2 e3)]

/-- **C82, hashes not checked (partial).** Without the check of manifest hashes (`-strict.hash`), the result of an exploration does
    not depend on the wall clock. Missing: the general claim, which is false (`C82_violated`). -/
theorem C82_no_strict_hash_partial (cfg : Cfg) (hs : cfg.strictHash = false) (W : World) (n1 n2 : Nat → Int) (fuel : Nat) (m : M) :
    m.explore cfg (atClock W n1 n2) fuel = m.explore cfg W fuel := by
  unfold M.explore
  refine loop_clock (I := fun _ => True) ?_ (fun _ _ _ _ => trivial) fuel m _ 0 trivial
  intro m _
  exact step_clock (fun m1 f _ _ h => by rw [hs] at h; simp at h)

/-- **C82, same side of all dates (partial).** With the check, the wall clock matters only through the dates of the manifests: if on both
    days the same manifests (of those that can be decoded from a file) are out of their dates, then the two explorations
    of a new manager have the same result. -/
theorem C82_same_dates_partial (cfg : Cfg) (W : World) (n1 n2 : Nat → Int) (fuel : Nat) (initial : List PKIFile)
    (h : ∀ n d c, W.env.parseMft d = .ok c → (OutOfDate (atClock W n1 n2) n c ↔ OutOfDate W n c)) :
    ((M.new V.new).putFiles initial).explore cfg (atClock W n1 n2) fuel = ((M.new V.new).putFiles initial).explore cfg W fuel := by
  have hD : ∀ d c, W.env.parseMft d = .ok c → (fun c => ∃ d, W.env.parseMft d = .ok c) c := fun d c hc => ⟨d, hc⟩
  refine loop_clock (I := fun m => MftAll (fun c => ∃ d, W.env.parseMft d = .ok c) m.v) ?_
    (fun m m' hm hs => exploreStep_mft hD hm hs) fuel _ _ 0 ?_
  · intro m hm
    apply step_clock
    intro m1 f hv hc _
    unfold M.checkExpired
    split
    · rfl
    · split
      · rfl
      · split
        · split
          · split
            · rename_i res hres
              split
              · rename_i c hdata
                obtain ⟨d, hd⟩ := hm _ (.mft c) (by
                  show m.v.heap[_]?.map Res.data = _
                  rw [← hv, hres]
                  simp [hdata]) c rfl
                have := h m1.clock d c hd
                unfold OutOfDate at this
                by_cases ho : W.now1 m1.clock > c.nextUpdate ∨ W.now2 m1.clock < c.thisUpdate
                · rw [if_pos (this.mpr ho), if_pos ho]
                · rw [if_neg (fun hh => ho (this.mp hh)), if_neg ho]
              · rfl
            · rfl
          · rfl
        · rfl
  · rw [putFiles_v]
    intro i d hd
    simp [M.new, V.new, V.dataOf] at hd

/-- **C82 is violated.** With a chosen time (here it stays at 50) the same files are judged differently on different days: the
    manifests are valid from 0 to 100, and with the wall clock at 101 the trust anchor is not valid. -/
theorem C82_violated : ∃ (W : World) (t t' : Int) (m m' : M) (n n' : Nat),
    startM.explore cfgS (atClock W (fun _ => t) (fun _ => t)) 20 = .ok (m, n) ∧
    startM.explore cfgS (atClock W (fun _ => t') (fun _ => t')) 20 = .ok (m', n') ∧
    IsValid m.v [1] caTA ∧ ∀ c, ¬ IsValid m'.v [1] c := by
  have h1 : (match startM.explore cfgS (worldT 50) 20 with
      | .ok (m, n) => some ((m.v.validObjects.get [1]).bind m.v.certOf)
      | _ => none) = some (some caTA) := by decide +kernel
  have h2 : (match startM.explore cfgS (worldT 101) 20 with
      | .ok (m, n) => some (m.v.validObjects.get [1])
      | _ => none) = some none := by decide +kernel
  split at h1
  · rename_i m n e1
    split at h2
    · rename_i m' n' e2
      refine ⟨worldM (some [7]), 50, 101, m, m', n, n', e1, e2, ?_, ?_⟩
      · simp only [Option.some.injEq] at h1
        obtain ⟨i, hi, hc⟩ := Option.bind_eq_some_iff.mp h1
        exact ⟨i, hi, hc⟩
      · rintro c ⟨i, hi, _⟩
        simp only [Option.some.injEq] at h2
        rw [hi] at h2
        simp at h2
    · simp at h2
  · simp at h1

/-- The hypothesis can be met with two different clocks, and the exploration does something. -/
example : (∀ n d c, (worldT 50).env.parseMft d = .ok c →
      (OutOfDate (atClock (worldT 50) (fun _ => 99) (fun _ => 99)) n c ↔ OutOfDate (worldT 50) n c)) ∧
    (match startM.explore cfgS (worldT 50) 20 with | .ok (m, n) => (n, (m.v.validObjects.get [1]).isSome) | _ => (0, false)) = (7, true) := by
  refine ⟨?_, by decide +kernel⟩
  intro n d c h
  have hc : c.thisUpdate = 0 ∧ c.nextUpdate = 100 := by
    simp only [worldT, worldM, envM] at h
    repeat' split at h
    all_goals simp at h
    all_goals subst h
    all_goals exact ⟨rfl, rfl⟩
  unfold OutOfDate atClock worldT
  simp [hc.1, hc.2]

end Verif.Props
