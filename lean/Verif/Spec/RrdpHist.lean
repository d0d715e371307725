import Verif.Spec.Sync
/-
  Specification for C90: a history of synchronisations of one RRDP endpoint.
-/
set_option autoImplicit false

namespace Verif.SyncSpec
open Path Rrdp Cache

/-- What a server published: for a session and a serial the content, and the URIs that the delta to this serial names. -/
structure Server where
  content : Bytes → Int → Bytes → Option Bytes
  named : Bytes → Int → Bytes → Prop

/-- The answers of one run are those of the server: a snapshot is the content of the announced serial, a delta leads from the
    content of one serial to that of the next, and is always the same for the same serial. -/
structure Honest (srv : Server) (W : World) (n : Notification) : Prop where
  snapshot : ∀ k d, W.getXML k n.snapshot.uri = some d →
    ∃ pub, W.parseNode d = some (pub, []) ∧ IsSnapshot (srv.content n.sessionID n.serial) pub
  delta : ∀ e ∈ n.deltas, ∀ k d, W.getXML k e.uri = some d →
    ∃ pub wd, W.parseNode d = some (pub, wd) ∧
      IsDelta (srv.content n.sessionID (e.serial - 1)) (srv.content n.sessionID e.serial) pub wd ∧
      ∀ u, srv.named n.sessionID e.serial u ↔ (∃ i ∈ pub, i.uri = u) ∨ (∃ i ∈ wd, i.uri = u)

/-- All URIs of the server contain the bound domain and are kept in different files. -/
structure Placed (srv : Server) (base domain : Bytes) : Prop where
  domain : ∀ S k u, srv.content S k u ≠ none → domain <:+: u
  apart : ∀ u v, (∃ S k, srv.content S k u ≠ none) → (∃ S k, srv.content S k v ≠ none) → target base u = target base v → u = v

/-- Between two runs: the kept position, the cache, the last notification read and the sessions announced so far. -/
structure Between where
  session : Bytes
  serial : Int
  fs : FS
  last : Option Notification
  seen : List Bytes

/-- `n` may follow what was announced before: in the same session the serial does not go back and a delta that was dropped
    from the list does not come back; another session is a new one. -/
def Follows (st : Between) (n : Notification) : Prop :=
  (∃ m, st.last = some m ∧ n.sessionID = m.sessionID ∧ m.serial ≤ n.serial ∧
    ∀ k, k ≤ m.serial → Missing m k → Missing n k) ∨ n.sessionID ∉ st.seen

/-- The histories of one endpoint. Each run starts from the kept position. It succeeds, fails or is killed; afterwards the kept
    position is the new one (only if it succeeded), the one before (it was not saved), or none (saving it was cut
    short). Other files may change between runs. The first cache is arbitrary. -/
inductive Hist (srv : Server) (base domain path : Bytes) : Between → Prop
  | start (fs : FS) : Hist srv base domain path ⟨[], 0, fs, none, []⟩
  | unread (st : Between) (h : Hist srv base domain path st) (session : Bytes) (serial : Int)
      (hk : (session = st.session ∧ serial = st.serial) ∨ (session = [] ∧ serial = 0)) :
      Hist srv base domain path { st with session := session, serial := serial }
  | run (st : Between) (h : Hist srv base domain path st) (W : World) (os : OS) (n : Notification) (s' : Sys) (r : R FS) (b : Bool)
      (hn : (W.getXML 0 path).bind W.parseRoot = some n) (hh : Honest srv W n) (hf : Follows st n)
      (hr : Rrdp.fetchRRDP W (callback os base domain) ⟨path, st.session, st.serial⟩ ⟨st.fs, [], []⟩ = .ok (s', r, b))
      (session : Bytes) (serial : Int)
      (hk : (session = st.session ∧ serial = st.serial) ∨ (b = true ∧ session = s'.sessionID ∧ serial = s'.serial) ∨
        (session = [] ∧ serial = 0)) :
      Hist srv base domain path ⟨session, serial, r.st, some n, n.sessionID :: st.seen⟩
  | killed (st : Between) (h : Hist srv base domain path st) (W : World) (os : OS) (n : Notification) (s' : Sys) (r : R FS) (b : Bool)
      (hn : (W.getXML 0 path).bind W.parseRoot = some n) (hh : Honest srv W n) (hf : Follows st n)
      (hr : Rrdp.fetchRRDP W (callback os base domain) ⟨path, st.session, st.serial⟩ ⟨st.fs, [], []⟩ = .ok (s', r, b))
      (fs' : FS) (hkill : KilledAt os base domain st.fs r.calls fs') :
      Hist srv base domain path ⟨st.session, st.serial, fs', some n, n.sessionID :: st.seen⟩
  | elsewhere (st : Between) (h : Hist srv base domain path st) (fs' : FS)
      (hf : ∀ u, (∃ S k, srv.content S k u ≠ none) → fs'.file (target base u) = st.fs.file (target base u)) :
      Hist srv base domain path { st with fs := fs' }

end Verif.SyncSpec
