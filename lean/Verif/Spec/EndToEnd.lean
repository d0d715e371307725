import Verif.Model.Manager
/-
  Specification for the path from files to published lines: what is decoded from a file, what a manifest
  lists, which certificates count as trust anchors of a TAL.
-/
set_option autoImplicit false

namespace Verif.EndSpec
open Pki Manager

/-- What is decoded from a file of this type with these contents. -/
inductive FromFile (env : Env) (data : Bytes) : FType → ResData → Prop where
  | tal (t : Tal.RPKITAL) (h : Tal.decodeTAL env.asn data = .ok t) : FromFile env data .tal (.tal t)
  | cer (c : Cert) (h : env.parseCert data = .ok c) : FromFile env data .cer (.cert c)
  | roa (r : ROA) (h : decodeROA env data = .ok r) : FromFile env data .roa (.roa r)
  | roaCert (r : ROA) (h : decodeROA env data = .ok r) : FromFile env data .roa (.cert r.cert)
  | mft (m : Mft) (h : env.parseMft data = .ok m) : FromFile env data .mft (.mft m)
  | mftCert (m : Mft) (h : env.parseMft data = .ok m) : FromFile env data .mft (.cert m.cert)
  | crl (l : CRL) (h : env.parseCRL data = .ok l) : FromFile env data .crl (.crl l)

/-- The certificate has the RSA key of the TAL. -/
def HasKeyOf (t : Tal.RPKITAL) (c : Cert) : Prop := ∃ k, t.publicKey = .rsaPtr k ∧ c.pubKey = .rsaPtr k

/-- `k` is the key id of a trust anchor of the TAL file `f0`: the FileSeeker gave contents for the TAL file
    that say where to find a certificate and which key it has, and gave, for that place, a certificate with
    that key and with key id `k`. -/
def AnchorOf (W : World) (f0 : PKIFile) (k : Bytes) : Prop :=
  ∃ n0 d0 s0 t n f d s c, W.getFile n0 f0.path f0 = .found d0 s0 ∧ Tal.decodeTAL W.env.asn d0 = .ok t ∧
    f.path = t.getRsyncURI W.env.sha1 ∧ W.getFile n f.path f = .found d s ∧ W.env.parseCert d = .ok c ∧
    HasKeyOf t c ∧ c.ski = k

/-- `c` is a trust anchor of the TAL file `f0`: the FileSeeker gave contents for the TAL file that say where to find a
    certificate and which key it has, and gave, for that place, the certificate `c`, which has that key. -/
def AnchorCert (W : World) (f0 : PKIFile) (c : Cert) : Prop :=
  ∃ n0 d0 s0 t n f d s, W.getFile n0 f0.path f0 = .found d0 s0 ∧ Tal.decodeTAL W.env.asn d0 = .ok t ∧
    f.path = t.getRsyncURI W.env.sha1 ∧ W.getFile n f.path f = .found d s ∧ W.env.parseCert d = .ok c ∧ HasKeyOf t c

/-- The contents `data` of file `p` make the file `f` known: the TAL says where to find the trust anchor; a
    certificate names its manifest and its CRLs; a manifest with a good signature lists the file with its hash. -/
inductive Offers (env : Env) (p : Nat) (data : Bytes) : FType → PKIFile → Prop where
  | anchor (t : Tal.RPKITAL) (f : PKIFile) (h : Tal.decodeTAL env.asn data = .ok t) (hp : f.parent = some p)
      (hu : f.path = t.getRsyncURI env.sha1) (hc : f.type = .cer) (ht : f.trust = true) (hh : f.manifestHash = none) :
      Offers env p data .tal f
  | pointer (c : Cert) (f : PKIFile) (h : env.parseCert data = .ok c) (hp : f.parent = some p)
      (hc : (f.type = .crl ∧ f.path ∈ c.crlDPs) ∨ (f.type = .mft ∧ (SIAKind.manifest, f.path) ∈ c.sia)) (ht : f.trust = false)
      (hh : f.manifestHash = none) : Offers env p data .cer f
  | listed (m : Mft) (f : PKIFile) (hash : Bytes) (h : env.parseMft data = .ok m) (hi : m.innerValid = true)
      (hp : f.parent = some p) (hl : (f.path, hash) ∈ m.fileList) (ht : f.trust = false) (hh : f.manifestHash = some hash)
      (hn : f.type = determineType f.path) : Offers env p data .mft f

end Verif.EndSpec
