import Verif.Model.Local
import Verif.Model.Manager
/-
  Model of the files as the validator reads them over the API (sync/api/fetch.go): `APIFetch` is the other `FileSeeker` of the
  repository, next to `LocalFetch` (Model/Local).
-/
set_option autoImplicit false

namespace Verif.Api
open Pki Manager

/-- What comes from outside. `readFile` is ioutil.ReadFile, `none` if it fails. `resource` is `client.GetResource` by path, `none` if it
    returns an error (generated clients return no nil resource without one). `repository` is `client.GetRepository` by path: `none` if the
    call fails, else the resources (path, data) that `Recv` gives before its first error, and whether that error is the regular end of the
    stream. -/
structure Client where
  readFile : Bytes → Option Bytes
  resource : Bytes → Option Bytes
  repository : Bytes → Option (List (Bytes × Bytes) × Bool)

/-- sync/api/fetch.go:18-31 `FetchFile`. (With an error of the conversion it also returns the data, which the only caller drops, lines
    48-51.) -/
def fetchFile (cl : Client) (path : Bytes) : Go Bytes :=
  match cl.resource path with
  | none => .err "rpc error"
  | some d => Ber.BER2DER d

/-- sync/api/fetch.go:33-57 `GetFile`. The `SeekFile` has no hash. -/
def getFile (cl : Client) (files : List PKIFile) (f : PKIFile) : Go Fetch :=
  if f.type = .tal then
    match cl.readFile f.path with
    | none => .ok .fail
    | some d => .ok (.found d none)
  else
    match fetchFile cl (f.computePath files) with
    | .ok d => .ok (.found d none)
    | .err _ => .ok .fail
    | .panic => .panic
    | .diverge => .diverge

/-- sync/api/fetch.go:84: `data, _ := librpki.BER2DER(resource.Data)`: no data on an error. -/
def conv (d : Bytes) : Go Bytes :=
  match Ber.BER2DER d with
  | .err _ => .ok []
  | x => x

/-- sync/api/fetch.go:67-99: the loop over the stream. The parent of the file is the file asked for; `runCalls` sets it. -/
def recvLoop (repo : Bytes) : List (Bytes × Bytes) → Go (List Call)
  | [] => .ok []
  | (path, data) :: rest => do
    let d ← conv data
    let t ← recvLoop repo rest
    return ⟨⟨none, repo, path, Cache.typeOfName path, false, none⟩, d, none, false⟩ :: t

/-- sync/api/fetch.go:59-101 `GetRepository`: the calls of the callback, and whether it returns without error. How the stream ended is
    not looked at. (A panic comes after the calls made before it; the model has no calls then.) -/
def getRepository (cl : Client) (f : PKIFile) : Go (List Call × Bool) :=
  match cl.repository f.repo with
  | none => .ok ([], false)
  | some (l, _) => do
    let calls ← recvLoop f.repo l
    return (calls, true)

end Verif.Api
