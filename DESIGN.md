# Formal model of cloudflare/cfrpki in Lean 4 — design

The model lives in `lean/Verif/`. It is split so that a reader can check statements without reading proofs:

| directory | content |
|---|---|
| `Verif/Model/*.lean` | the code, function by function; every definition cites file and lines in /repo |
| `Verif/Spec/*.lean` | small independent specifications (what the English property means) |
| `Verif/Lemmas/*.lean` | helper lemmas and invariants |
| `Verif/Props/*.lean` | the property theorems, each with a non-vacuity `example` beside it |

## Modelling conventions

* A Go function that can panic returns `Go α` (`ok a`, `err e`, or `panic`). A panic is therefore an observable outcome and "does not crash" is a theorem, not an assumption.
* `[]byte` and `string` are `List UInt8`. A nil slice is the empty list unless the code tells them apart, in which case it is an `Option`.
* Pointers that are never shared become values. Pointers whose identity matters (`*Resource`, `*PKIFile`) become ids or the key under which they are stored; the definition says so.
* Go maps become association lists or functions with update. Where the code ranges over a map, the theorem quantifies over every order.
* Goroutines become a step relation; theorems quantify over every schedule.
* `int` is `Int` or `Nat` unless the property is about narrowing (`uint8(MaxLength)`), which is modelled with `% 256`.

## Trusted base

* Lean 4.33.0's kernel. The axioms of each theorem are at most `propext`, `Classical.choice`, `Quot.sound`; the last section lists them theorem by theorem (generated by `tools/design.py` from `#print axioms`). No axiom of our own, no `sorry`, no `native_decide`, no `bv_decide`.
* The faithfulness of the model to the Go text. The code is not run.
* Parameters, about which nothing (or only what a theorem states as a hypothesis) is assumed: SHA-1 and SHA-256, ECDSA, the signature check of X.509 (inside `CheckSignatureFrom`) and of CRLs, public keys in certificates that are not RSA keys, the answers of HTTP servers, the rsync program, the clock, the order of map iteration, the schedule of goroutines.
* Go library behaviour that is modelled from its documentation and from memory of its source, since no Go tree is installed: `net.IP.To4/To16/String`, `net.ParseCIDR`, `net.CIDRMask`, `net.IPMask.Size`, `net.IPNet.Contains/String` (Go 1.19), `bytes.Compare/Equal`, `strings.Split/Contains/HasPrefix/TrimSuffix/Join`, `strconv.ParseUint`, `sort.Strings`, `path/filepath.Join/Clean/Dir` (Unix), `encoding/base64` (Std and RawStd alphabets), `encoding/hex`, `os.MkdirAll/WriteFile/ReadFile/ReadDir`, `time.Time.UnixNano` (wraps), `crypto/rsa` PKCS#1 v1.5 padding, `encoding/json` (Marshal, Unmarshal, the scanner) for the structures that are published and the file of positions.
* `encoding/asn1` is modelled (Model/Der) from the fork in /repo/vendor/github.com/google/certificate-transparency-go/asn1, with the two differences of the standard package that matter (Go 1.19): a base 128 integer that starts with 0x80 is rejected, and a SET OF is sorted when encoded.
* `encoding/xml` (Model/Xml) and `crypto/x509` (Model/X509, parser.go and `CheckSignatureFrom` of Go 1.19) are modelled from memory of their source; the reader under `crypto/x509` from the copy in /repo/vendor/golang.org/x/crypto/cryptobyte. Where theorems of other properties take the X.509 parser as a parameter, they hold for every parser, also for this one.

## Limits of the model

* `int` is unbounded unless a definition wraps it; serial numbers are unbounded integers (in Go they are `big.Int` in certificates). Counters (iterations, RRDP serials) do not overflow.
* The prefix tree of `ov` is modelled below 2^31 − 2 entries.
* File system: a tree of files and directories without symbolic links, permissions and running out of space. A failed `MkdirAll` in `RunRsync` leaves the cache as it was.
* A fetch ends: no theorem says anything of a server that keeps a connection open for ever.
* A crash of the BER conversion while files are read in Model/Refresh counts as an error of that file.
* In resources.json the members `name`, `emitted` and `mft-number` are not modelled; `String` of a nil `*net.IPNet` is a parameter, as it depends on the version of Go.

## Not modelled

Prometheus metrics, Sentry and tracing, logging, command-line parsing, the HTTP servers' transport, gRPC, and the vendored libraries other than kentik/patricia and gortr/prefixfile. The section "Coverage of the code" lists every function.

## Properties: what is modelled and how it is proved

When the code violates the property as a user would state it, the plan is: prove the negation with a concrete witness (theorem named `..._fails`/`..._violated`), and prove the strongest true part with the suffix `_partial`.

| id | model | proof |
|---|---|---|
| C01 | `ber.go` byte by byte, with panics; Spec/BerLax: reading from left to right without checking that parts end inside their value | mutual induction over TLV trees: reading any BER encoding of a tree gives that tree; exactness by induction on the recursion depth and on the derivation |
| C02 | same | invariant of `readObject`'s result (every produced object is canonical) + C01 |
| C03 | same; Spec/BerLax: where an octet is missing | code violates it: truncated headers index out of range. Negation by witness families; `C03_exact` in both directions; partial: which inputs cannot panic |
| C04 | same | code violates it: children may overrun their parent, so bytes are parsed repeatedly. Explicit input family with exponential output, by induction; partial: termination on every input and linear size for well-nested input |
| C05 | `net.IPNet.Contains`, ranges, inherit | byte-lexicographic order is convex on prefixes; induction over the entry list |
| C06 | AS entries | induction over the entry list |
| C07 | the three `Validate*List` functions | induction; result is an order-preserving 3-way partition |
| C08 | `GetRangeIP`, masks as byte lists | bit lemmas on bytes (256-case facts lifted), induction over bytes |
| C09 | bit strings and masks | algebra over bytes |
| C10 | `IPToBitString`, `DecodeIPMinMax` | code panics for 4-byte addresses: negation; partial for 16-byte addresses |
| C11 | grouping and sorted emission | induction over the list |
| C12 | structure-level encode/decode | induction over the list |
| C13 | time comparison | decision logic |
| C14 | decode + check with nil pointers | code panics for unknown address families: negation; partial for families 1 and 2 |
| C15 | Validator as a state machine over stored objects | inductive invariant over all operations |
| C16 | `AddCert`/`ValidateCertificate` | decision logic + reachable-state invariant |
| C17 | the inheritance loop | code violates it: only the grandparent is ever consulted and left-over resources are accepted. Negation by witness; partial for at most one level of inheritance |
| C18 | `InvalidateObject` work-list | invariant of the work-list; permanence by invariant over all later operations |
| C19 | CRL processing | code violates it for duplicate serials: negation; partial for unique (issuer, serial) |
| C20 | key `aki+serial` | code violates it for key ids of different length: negation; partial for equal length |
| C21 | AddCert conflict branch | invariant over operations |
| C22 | ValidROA/ValidManifest/ValidCRL tables | invariant for ROA; code violates it for manifests: negation |
| C23 | AddROA | decision logic + C05, C08 |
| C24 | AddResource TA branch | decision logic |
| C25 | AddResource CRL branch | code violates it (nil dereference, late check): negation; partial |
| C26 | SimpleManager queue | invariant over all operation sequences |
| C27 | Explore loop | measure: unexplored names |
| C28 | Explore hash gate | decision logic over a step |
| C29 | Explore + InvalidateManifestParent | invariant lifted through the loop |
| C30 | ExtractPathManifest | decision logic over strings |
| C31 | filepath.Join/Clean + write order | component-level induction; code violates it for directories: negation; partial for files |
| C32 | callback | code violates it (substring test, fatal exit): negation; partial |
| C33–C37 | FetchRRDP as a function of notification, snapshot and delta contents, with a failure at any point | induction over deltas; refinement to a server history; C35 (withdraw, stale files), C37 (hash) are violated: negation + partial |
| C38–C40 | patricia tree: arena of nodes, uint32 / 2×uint64 addresses | refinement to a list of (prefix, tag); RFC 6811 specification |
| C41, C42 | ROA entries | decision logic, round trip |
| C43–C47 | CMS checks over abstract hash/RSA/ASN.1 | decision logic; violations by witness |
| C48–C50 | TAL text and base64 | round trip by induction; violations by witness |
| C51–C55 | filters, list generation, texts, digests, signatures (Model/Output, Model/NetText) | list induction, permutation reasoning, unique decomposition of texts; C53 count violated: negation |
| C56–C59 | validation loop as a state machine (Model/Loop), requests at any moments | invariant over all sequences of discoveries; C57 (one round too many), C58 and C59 violated: negation + partial |
| C60 | ETag | violated: negation |
| C61 | worker pool step relation (Model/Fetch) | invariant (permutation), progress, measure |
| C62 | job map | commutation of deletions, combined with C61 |
| C63 | CT path loop | measure over the set of seen ids; unique description of the path; link to reachable validator states |
| C64 | binding maps | invariant over insertions; the module part violated: negation |
| C65, C66 | URL and extension functions | list lemmas over strings |
| C67 | `GetRsyncURI` | list induction |
| C68 | all operations of the Validator | parent links point to older objects; the work-list of `InvalidateObject` shrinks the set of unseen objects |
| C69 | `ExtractPathCert` | list induction |
| C70 | `Explore`: check of expiry | step analysis + permanence of invalidation |
| C73 | encoders, `Sign`, `Marshal`, decoders | round trip through the DER model; RSA by Fermat's theorem; in-memory validation and strict mode violated: negation |
| C74, C76 | `asn1.Marshal`/`Unmarshal` of the two content types | grammar in Spec/Content; exactness both ways |
| C75 | `CheckSignaturesMatch` | exact characterisation for DER certificates |
| C77 | `IP.String`, `IPNet.String`, `ParseCIDR` | round trip by induction on digits and groups |
| C71 | module extraction, local path, MkdirAll and the rsync tool as a parameter | path algebra; `..` violated: negation |
| C72 | both path computations, WriteFile/ReadFile on the abstract file system | equality of cleaned paths for URIs with one scheme; violations as witnesses |
| C79 | the download loop over the URIs of a TAL, made-up rsync names, failover job, later histories of the cache | induction on the URIs and on the history; failover violated |
| C80 | file lookup with the set of synchronised repositories | case analysis; manifest-listed files violated for all states |
| C81 | directory listing and the loop over it | induction; rsync URIs violated for all caches |
| C82 | the exploration with two wall-clock readings per step, apart from the chosen time | simulation of two runs, invariant that stored manifests were decoded from files; violated in general: negation |
| C78 | `mainValidation` and `generateROAList` on top of the exploration and the list generation (Model/EndToEnd; specification Spec/Published) | invariant of the exploration joining C15–C17, C22, C23, C26 and C53; overclaim through double inheritance violated: negation |
| C83 | rounds of `validationLoop` for trust anchors: marks, plan, downloads, cache as the validator's world (Model/Refresh; specification Spec/Refresh) | invariant of the exploration after its first two steps; induction over rounds; renewal violated: negation and a fixed point |
| C84 | `generateROAList` for resources.json, `schemas.OutputRes` with `omitempty` (Model/ResJson; specification Spec/ResJson) | invariant of the exploration that each stored object was decoded from its file with its type (Lemmas/Typed); manifests, dates and AS 0 violated: negations with witnesses |
| C85 | `DecodeIPAddressBlock`, `EncodeIPAddressBlock` down to octets (Model/Ext; specification Spec/Ext: the grammar of RFC 3779 2.2.3 and the addresses a prefix or range holds) | element by element inversion of the DER parser (Lemmas/Ext), composition with C08–C11 for the values; negations with witnesses |
| C86 | `DecodeASN`, `DecodeASIdentifier`, `EncodeASN` down to octets (Model/Ext; Spec/Ext: RFC 3779 3.2.3) | as C85, with exact minimal integers (Lemmas/ExtAs) |
| C87 | `DecodeSubjectInformationAccess`, `EncodeSIA`, `EncodeInfoAccess`, `EncodePolicyInformation`, key identifiers (Model/Ext; Spec/Ext: RFC 5280 4.2) | inversion of the parser, base 128 arcs by induction (Lemmas/ExtAccess) |
| C88 | loop of `DecodeCertificate` over the extensions, with the X.509 parser as a parameter; access point getters (Model/Ext) | induction on the extensions gives an exact description; containment by C85/C86 with C05–C07 |
| C89 | Model/RrdpState: LoadRRDPInfo, saveRRDPInfo, getRRDPInfo, newRRDPSystem, fetchRRDP on the map, doRRDP; the process as a transition system (load, begin, fail, succeed, save complete or cut, kill). encoding/json is a parameter with two stated laws, which Model/Json is proved to have. | Invariant over all histories: entries of the map and of the file are positions reached; the next round finds one of three positions. Negation for endpoints: two certificates, one module, two endpoints. |
| C90 | Model/Rrdp and Model/Cache over histories (Spec/RrdpHist): any server with sessions and serials, runs that succeed, fail or are killed, position kept, old or lost. | Invariant: the cache holds the content of the kept serial but for URIs that later deltas name; complete runs repair the rest. Negations: a session that returns; a position that returns. |
| C91 | Model/Crl: CreateCRL with asn1.Marshal of pkix.TBSCertificateList and CertificateList, ParseDERCRL, the view of AddCRL. Key, digest, subject octets and reading of times are parameters. | Round trip through an intermediate form that both writer and reader meet; form against Spec/Crl (RFC 5280); combined with C19 for the effect. Two negations. |
| C92 | Model/Crl: asn1.Unmarshal into pkix.CertificateList. | Safety by composition; reading of every encoding of Spec/Crl. |
| C93 | Model/Info: the notes of mainValidation with backing arrays, pointers and an arbitrary growth function, on top of the bindings of C64; ServeInfo. | Invariant over the certificates seen so far (each pointer leads to a cell with its module; the current array of each trust anchor holds the modules it names first; the last cell is reached by its pointer). Two negations with Go's growth. |
| C94 | Model/Time: encoding/asn1's parseUTCTime and parseGeneralizedTime over the parts of time.Parse, Date, Format and AddDate that the three layouts use (Go 1.19). | Spec/Time counts days year by year and month by month. Round trip of the calendar arithmetic; each written form parses; conversely the comparison with the formatted text pins the accepted text. Discharges the hypothesis ReadsTimes of C91/C92 and the date hypotheses of C73/C76. |
| C95 | The validator, manager and exploration of Model/Pki and Model/Manager as they are; Spec/Crash says which octets are harmless and what a list of an unknown issuer is. | Each function of the validator is shown free of panics under an invariant (tables point into the heap, every file has its object, files of certificates are set), the invariant is kept by every round; the one remaining panic is traced to the list in hand. Witnesses for the crash, also of a validation with three TALs. |
| C96 | Model/Manager's rounds in repository mode; Spec/Repository says what a reading is, on the trace of events. | The set of explored names is characterised over the whole life (names of added files, and repositories of taken manifests); each round is then compared with what the file seeker handed over. |
| C97 | Model/Report: the functions of the manager with what they send on the channel (kind, file, second file), and the channel with its two sides as a transition system. Spec/Report: what each kind of error claims of a file. | Equality of rounds with and without reports; case analysis over the Validator for the truth of each reason; invariants over the life of the manager (CA known, no file below a revocation list, head not explored); for the channel an invariant with a measure. |
| C98 | Model/RsyncOut: bufio's lines with the limit of the scanner, the expression for extensions, FilterMatch, the URL below which names are. Spec/RsyncOut: what rsync prints for a module, a directory and the contents of one. | Splitting lemmas; induction over the lines; case analysis over the form of the URL. |
| C99 | Model/RsyncOut: the tree of maps as a list of paths with counts, AddInMap with its copy of the entry, ReduceMap as a queue with an arbitrary order of iteration per step. | Invariant of the tree over the history (entries are the prefixes, counts); loop invariant of the queue (pairwise apart, complete) with the number of entries below as measure; fork of two paths for uniqueness. |
| C100 | Model/LocalRpki: the loop over TALs and valid ROAs; the table from resources to files is the inverse of `resOf`. Spec/LocalRpki: what a line says and where its path leads. | Invariant over rounds: a recorded resource has the file it is recorded with, and every valid ROA is recorded (Lemmas/LocalRpki); backing from C78; agreement with octorpki by comparing the two loops. |
| C101 | Model/Process: a round of octorpki put together from the models of its parts (RRDP, trust anchors, rsync, explorations, repositories, list), and the state that stays. Spec/Process: what a certificate names, what a round tried. | Facts of a round (Lemmas/Process, `RoundFacts`); invariant over rounds for where jobs come from; stability through C56; lines through C78; concrete run of three rounds, and one with two repositories in a certificate. |
| C102 | Model/Process (no new model). | Jobs of rsync have rsync URLs by the invariant of C101; the tables of the validator are in step by C22 and its invariants; files of valid ROAs are still in the cache (exploration invariant); the list by C53. Restart of the example over its cache meets the hypotheses; two concrete crashing runs. |
| C103 | Model/Conc: the goroutines of octorpki as trees of accesses, locks, atomics, forks and waits; any schedule. | Lock discipline (at most one lock at a time, each field under its lock) is an invariant of every run and orders accesses; objects that are built, then published under a lock and not changed after that; fields only the loop uses. Races: concrete traces with a set of events closed under happens-before. |
| C104 | Model/Conc. | Nobody holds a lock while doing something slow, so holders can let go, waiting writers can write, workers can end, and the loop can make its step; induction on the code of the loop. Violation: a state where the loop waits for a lock held at a write to a client is kept by every step that is not that write. |
| C105 | Model/Ct: chains from paths of files; main goroutine and threads as transition systems (channel without room in octorpki, with room for n and a stop channel in ctrpki); the place in the loop of Model/Loop. | Invariant: posted, being posted, in the channel and to do together are a permutation of the chains; a measure bounds the steps; progress. Violations: runs built for every n; states of the loop. |
| C106 | Model/RrdpXml: tokens of a document, decoding of the structs, loops of ParseRoot and ParseNode; joined with the run of Model/Rrdp. | Spec: documents as trees with their tokens. Induction over the tree; consumption lemmas (what is accepted does not depend on what follows, so a proper beginning cannot be accepted). Violations: for every document without a tag, every run. |
| C107 | Model/RrdpLimit: GetXML over the possible answers, the errors with their texts, FetchRRDP with its error, rrdpError. | Erasure: without the errors it is the run of Model/Rrdp. Invariant along the run: no answer over the limit so far and another error, or the last answer is the first over the limit and the error is its text. |
| C108 | Model/RsaEncrypt: PrivateEncrypt with both ways to compute the power (one exponentiation, or per prime with recombination), padding, range checks, Bytes(). | Invariant of the loop: m is the power modulo the product of the primes used so far; Fermat per prime; the padded block is below N. |
| C109 | Model/ErrText: the constructors and texts of errors.go, the tags and extras for Sentry, ValidateCertificate and AddCert with their errors, String of certificates and resources, logCollector. | Errors agree with the decisions of Model/Pki (same kind); texts are cut at separators that cannot occur in what precedes; tags by the last value set. |
| C110 | Model/Routes: the patterns that Serve registers, ServeMux (registration, lookup, redirections, cleanPath), rs/cors (list of origins, preflight, headers). | The multiplexer is tied to the list of patterns by an invariant of registration; the paths it keeps are shown to be those in simple form; the origin check to a relation between entries and origins. |
| C111 | Model/Json: the encoder of encoding/json (strings, numbers, structs, maps), its scanner (the step functions and the stack), the decoder; the file while it is written. Spec/Json: the grammar of RFC 8259 with UTF-8 as in RFC 3629. | The text is derived in the grammar; the scanner and the reader are shown to follow every derivation (induction on derivations), so the grammar is not ambiguous; cut-off texts by an invariant of the scanner: a bracket is open until the last octet. |
| C112 | Model/Spki: `asn1.Marshal`/`Unmarshal` of RSA keys and key infos, key identifiers, as instance of the ASN.1 parameter of Model/Tal. Spec/Spki: RFC 8017 and RFC 5280 forms. | The parsers invert the writers (element lemmas); what is accepted is read off the parser in reverse; integers have one shortest form; lengths of keys by range of two's complement. |
| C113 | Model/Xml: `Decoder.Token` of encoding/xml with names, references, text, CDATA, comments, instructions, directives, attributes and the stack of open elements. Spec/Xml: how documents are written, octet by octet. | Each reader is shown equivalent to its production (both directions); runs of the decoder are deterministic, so a well-formed document gives its tokens; a run on a cut document is a run on the whole one but for a last text, and such a text does not turn rejection into acceptance; sizes and characters by induction over pieces. |
| C114 | Model/CaXml: `Decoder.Decode` for the structs of ca/xml.go (first start tag, name and name space, attributes, octets up to the matching end tag), `DecodeInner` and the decoders of messages. Spec/CaXml: elements and messages, octet by octet; name spaces as their attributes declare. | The search for the end tag is sound and complete for the grammar of C113 (strong induction on rounds; induction on content); both directions of each decoder follow; determinism gives cut messages and one kind; ends by measure. |
| C115 | Model/X509: `x509.ParseCertificate` on octets (cryptobyte reader, names, dates, keys, extensions), `DecodeCertificate` on it, `CheckSignatureFrom`, and the certificate as the validator uses it (`toPki`). Spec/X509: the same octets as relations, from X.690 and RFC 5280; the form of RFC 6487. | Each reader is exact for its relation (`…_iff`), composed up to `C115_exact`; the loop over the extensions by induction with a general accumulator; key usage bit by bit; the profile by giving the parts; uniqueness of the signed octets' meaning from determinism of the readers. |
| C116 | Model/Octets: the validator's environment (`Pki.Env`) built from the octet models of certificates, ROAs, manifests, CRLs and TALs. Spec/Octets: what a certificate's octets say, signed paths of octets, ROAs and manifests as octets. | `C116_certificate` both ways from C115; `C116_roa_same`/`C116_manifest_same` by running both programs side by side, over all outcomes; `C116_line` from C78, with the chain of C15_to_anchor turned into octets by induction. The example runs the whole program in the kernel, from octets to a line. |
| C117 | Model/Octets, Model/Ber, Model/Cms; Spec/CrashOctets: ROAs and manifests without signer, contents that break off (Spec/BerLax), nil addresses | each decoder step that cannot panic is passed with its safety lemma, and what is left is the missing signer or the BER converter (`C03_exact`); `C117_run` through `C95_exact_partial`; witnesses as octets |
| C118 | Model/Pki, Model/EndToEnd; Spec/Revoked: lists in force, clear paths | the table of valid lists only gets accepted lists (`crls_step`), so the serials of a list in force were revoked at some step of the history; what that step removed stays removed (`Frame`), seen with the anchors stored at the end (`anchored_run`); joined with the chains of C78 |
| C119 | Model/Pki; Spec/Complete, Spec/CompleteLine: ROAs in order, certificates in good course, the history behind an exploration | acceptance by `C16_complete`; then, operation by operation, an entry of the tables of valid objects and ROAs goes away only with its issuer, by revocation of its serial or by name (`reach_up`, `vobj_step`, `vroa_step`); induction over the chain, seen at every moment of the history; every exploration is such a history (`explore_follows`, induction over its rounds) |
| C120 | Model/Pki, Model/Manager, Model/EndToEnd; Spec/CompleteLine: reasons for invalidating, the history behind an exploration | every round of the exploration adds files or invalidates a key id for which the trace shows the reason (`follows_round`, Lemmas/CompleteLine); then, operation by operation, the three other ways to lose an entry (`vobj_fell`, `vroa_run`); induction over the chain of `C15_to_anchor` for the first cause |
| C121 | Model/Api (sync/api/fetch.go), with Model/Ber and Model/Manager; Spec/Api: explorations over the API, files as they should be handed over | files by C01 and C03, induction over the stream; equality of explorations with and without strict hashes by induction over the rounds; witness with two manifests, one of which must have the wrong hash |
| C122 | Model/Manager, Model/EndToEnd; Spec/SameFiles: two answers with the same octets, two sources, two runs | lock-step simulation of two explorations that differ only in the record of events, round by round (no file has a CRL as parent, so an error and an absent file have the same effect); then the list from equal validators |

## Where the code disagrees with a property

Each line names the theorem with the witness or the characterisation. These are findings about the code as it is; the properties keep their full statement.

| id | what the code does |
|---|---|
| C01, C02 | an indefinite-length value with no content is misread (`C01_empty_indefinite_rejected`, `C01_empty_indefinite_swallows`) |
| C03, C04 | `BER2DER` panics on truncated input and its output can be exponentially larger than its input |
| C05, C08 | a prefix whose mask could not be built matches a parent entry with the same defect; IPv4-mapped IPv6 resources are compared with IPv4 resources |
| C10 | an IPv4 range panics when encoded; an IPv6 range that ends in the IPv4-mapped block is widened |
| C12 | "inherit" after other AS entries is lost or misread |
| C14 | an address family other than 1 or 2 crashes the check of resources |
| C17, C78 | with two levels of inheritance only one ancestor is consulted: resources nobody holds are accepted, up to the published list (`C78_violated_overclaim`) |
| C19, C20 | revocation looks up issuer key and serial glued together: duplicate serials hide each other and different pairs collide |
| C22, C84 | a revoked manifest stays in the table of valid manifests and in resources.json (`C84_violated_manifest`) |
| C24 | a certificate found through a TAL that was never registered is not checked against a key (API use only) |
| C25 | a CRL of an unknown issuer crashes the validator; a CRL in the wrong place is applied |
| C29, C70, C80 | a manifest that lists a file twice, a missing manifest and missing listed files do not invalidate the authority or are not reported |
| C30, C71 | `..` is accepted as a file name in a manifest, as an rsync module and as an rsync host |
| C31, C32 | RRDP: directories are made outside the cache; the domain is compared as a substring; a URI with another scheme or a file in place of a directory ends the process |
| C35, C37 | RRDP: withdrawn files are overwritten with nothing instead of removed, old files stay after a snapshot, hashes of snapshot and deltas are not checked |
| C38, C39 | origin validation: an IPv4-mapped VRP with a 128-bit mask is never found; a mask with holes counts as /0; AS 0 matches |
| C41, C42 | ROA entries: a length out of range counts as 0; a malformed entry is listed both as valid and as invalid; mapped prefixes are written with the wrong family |
| C43–C47, C75 | CMS: bytes after eContent are not in the digest; a manifest is hashed after conversion; e = 3 signatures can be forged; signed attributes of 128 bytes or more are hashed wrongly; no signer crashes unless strict (off by default) |
| C48–C50 | TAL: padding is accepted in odd places; creating and checking a TAL can panic for other key types |
| C53, C52 | counts are taken before the filters; a prefix that cannot be parsed crashes the filter; an AS number out of range is published and read as 0 |
| C54, C55 | the TA name is not signed; a list whose signing failed is published with empty signatures |
| C56–C59 | iterations: `max.iterations` + 1 rounds are run; 0 or less makes the first round stable; one-off mode can end without output; a list from an unstable round is served |
| C60 | two different lists can have the same entity tag |
| C61–C64 | a pool of 0 workers hangs; a module is not fetched when one of its RRDP endpoints sends too much; CT chains hold the root twice and crash on an unknown issuer; an RRDP endpoint can take over another module of its host |
| C72, C79 | a URI that holds "rsync://" twice is read from another place than it is written to; the rsync failover for a trust anchor makes a directory where the file should be |
| C73 | objects made by the library fail its own strict check, and cannot be validated in memory before they are encoded |
| C76 | the hash algorithm of a manifest is not checked |
| C81 | without manifests no file of a repository is found |
| C82 | manifests are judged by the wall clock even if a time was chosen |
| C83 | a trust anchor certificate with the right key is never downloaded again, even when expired |
| C84 | dates after 2262 wrap; AS 0 is shown as an empty object |
| C85 | any element with tag number 5 in place of the choice counts as inherit, unknown elements are dropped, inherit with a SAFI inherits nothing, range ends longer than an address are cut (`C85_violated_*`) |
| C86 | AS and RDI fields in the wrong order: the AS numbers are dropped without error |
| C87 | without a CPS address the policy extension holds an empty list of qualifiers, which RFC 5280 does not allow |
| C88 | critical extensions that are not understood are ignored, also the resource extensions of RFC 8360 |
| C89 | RRDP positions are keyed by the rsync module, not by the notification URL. Two certificates on one rsync module may name two endpoints; if the second announces the session of the first with a later serial, all fetches of the first succeed without downloading anything until its serial passes that one (`C89_violated_frozen`, `C89_violated_other_endpoint`). |
| C90 | A snapshot of a new session that fails half-way leaves its files in the cache under the position of the old session; if the old session comes back (servers not in step), the run succeeds with deltas only and the cache keeps the wrong bytes (`C90_violated_session_returns`). The same after a start at which the state file could not be read (`C90_violated_position_returns`). |
| C91 | `CreateCRL` without revoked certificates writes `revokedCertificates` as an empty SEQUENCE; RFC 5280 5.1.2.6 requires it to be absent (`C91_violated_empty`). |
| C91 | The validator takes the key identifier of a CRL by skipping four octets of the extension, so for key identifiers of 126 octets or more it finds another one (`C91_violated_long_key`). |
| C93 | The info page keeps pointers into slices that `append` reallocates: when a module is named again with another RRDP URL after further modules were added, the page shows the outdated URL (`C93_violated_stale_url`). |
| C93 | A repository used by two trust anchors is shown only under the first one, with the RRDP URL that the later one names (`C93_violated_shared_module`). |
| C94 | Dates with a zone other than Z, and UTCTime without seconds, are accepted although RFC 5280 4.1.2.5 forbids them (`C94_violated_other_forms`). The moment is computed correctly. |
| C95 | A revocation list whose authority key identifier matches no certificate seen crashes the process (nil dereference, pki.go:359): a single CA takes down the validation of all trust anchors (`C95_violated_unknown_issuer`, `C95_violated_validation`). A root that is a certificate file with CRL distribution points does the same (`C95_violated_certificate_root`). |
| C96 | Without manifests, the local file seeker names each file `repo + name` and the manager puts the repository in front once more, so no file is recognised as read: files read before are given to the validator again (`C96_violated_names`, `C96_violated_twice`). |
| C97 | A rejected revocation list is reported as a nil error: neither the file nor the reason is in the log (`C97_violated_crl`). A file that is listed and absent is not reported unless manifests are strict (`C97_violated_absent`). `InvalidateCRLParent` never does anything, because no file has a revocation list as parent. The collector is not awaited (`C97_violated_unread`). |
| C98 | The error of the line scanner is overwritten by that of `cmd.Wait`: a line of 64 KiB in rsync's output ends the list silently (`C98_violated_long_line`). |
| C99 | `AddInMap` counts on a copy of an existing entry: a URL added after one below it is lost in `ReduceMap` (`C99_violated_order`). |
| C101 | Only the module of the first repository in a certificate is fetched, while the validator takes the last one for the files and the manifest from wherever it is; with two repositories the loop is declared stable and publishes an empty list although the files are there. |
| C102 | An RRDP server named by any valid certificate ends the whole program with one URI such as https://rsync://h/r/x.roa (C32 in a run of the program). A positions file with the text null passes json.Unmarshal, leaves a nil map, and the first RRDP fetch that succeeds writes to it and crashes. |
| C103 | ServeROAs reads LastComputed (a time.Time of three words) without a lock while generateROAList writes it; ServeInfo reads ROAList, its data, ROAsTALsCount, LastComputed and ValidationDuration without locks. |
| C104 | ServeResources writes the answer to the client while it holds ResourcesMu, and the server has no time limits: one client that stops reading stops validation for ever (generateROAList waits for the lock), so octorpki goes on serving an old list; and because a waiting writer keeps new readers out, no other client gets the page of resources any more. |
| C105 | In one-off mode with -output.wait (the default) octorpki ends before it submits anything to the Certificate Transparency log. |
| C105 | octorpki with -ct.threads 0 blocks for ever at the first chain, so validation stops. |
| C105 | ctrpki with n threads tells the threads to stop while up to n chains are in the channel; select may choose to stop, and the chains are never submitted. |
| C105 | ctrpki shares one validator over all TALs, so chains of earlier TALs are submitted again with each later TAL. |
| C105 | ctrpki (and octorpki, for a repository it does not know) uses data.Data before it tests whether there is a file: a file that cannot be read any more crashes the program. |
| C106 | An answer that is no RRDP document (empty body, a web page of a proxy) is taken for a snapshot or delta without objects: the run succeeds, the announced serial is recorded, and the published changes are never fetched. |
| C106 | The session_id and serial of a snapshot or delta document, and whether it is a snapshot or a delta, are not compared with the notification (RFC 8182 demands it); the hash of the notification is not compared either (C37). |
| C106 | Several delta elements in one document are decoded into the same struct: the objects of the first are processed again. |
| C108 | PrivateEncrypt returns the signature without leading zeros: about one in 256 signatures is shorter than the modulus, against RFC 8017 8.2.1. |
| C109 | The line in the log about a rejected object never names the file; only the report to Sentry does. |
| C109 | ValidateTime's message about the end of validity prints NotBefore. |
| C109 | RPKICertificate.String prints the AS numbers under "ASNs RDI". |
| C110 | -output.roa "" (standard output in one-off mode) crashes the server at its start: ServeMux panics on an empty pattern. |
| C110 | A ROA path that is not clean (./output.json, ../output.json) is registered but never served: every request is redirected to another path. |
| C110 | -http.info, -http.health and -http.metrics without a leading slash are taken as host names and never served. |
| C110 | -cors.origins is split at commas without trimming spaces. |
| C111 | The output file is written in place: a crash leaves a file that is no JSON, and the old list is lost. |
| C111 | Names of trust anchors that are not UTF-8 are published with U+FFFD; two such names can become the same. |
| C89 | The position of an rsync module whose name is not UTF-8 is read back as the position of another module. |
| C49 | For every RSA key of 4096 bits (exponent 65537) the locator that EncodeTAL writes is refused by DecodeTAL; keys of 2048 bits are fine. |
| C112 | DecodeTAL accepts infos that are not DER and keys with modulus zero or negative numbers. |
| C113 | Attributes and elements are told apart by their local names only: `x:serial="7"` behind `serial="5"` makes the serial 7. |
| C114 | Octets behind a message are not looked at: a second message, or text that is no XML, is ignored. |
| C114 | Elements inside a message are read by a new decoder, so the name space declared on the message is lost: `XMLName.Space` of `<list/>` is empty, and that of `<p:list/>` is `p`. |
| C115 | Octets behind the signature, inside the outer SEQUENCE, are ignored: different files are the same certificate. |
| C115 | `CheckSignatureFrom` lets a certificate of version 1 or 2 without basic constraints sign others. |
| C115 | A key usage extension without any bit counts as no restriction. |
| C115 | The path length constraint of an issuer is not looked at, and neither are unknown critical extensions (`Verify` of crypto/x509 would; the validator does not call it). |
| C116 | The signer of a revocation list need not have the key usage for it (`CheckCRLSignature` looks only at the key). |
| C01 | a value whose part reaches beyond its end is accepted, and the octets beyond are read twice (`C01_more_than_ber`) |
| C117 | A repository without any malformed file ends the process if its manifest lists a revocation list that names no known issuer; shown with a whole repository as octets (`C117_violated_list`). |
| C118 | Two ROA certificates of one issuer with one serial: the revocation list that is in force lists the serial, and the line of the first ROA is still published (`C118_violated`, a whole validation). |
| C119 | A certificate that nobody issued, delivered first with the key id of a ROA's certificate, is refused but stored, and the ROA, which is in order, is then refused for ever (`C119_violated`). |
| C121 | `APIFetch` gives its files no hash, so in strict hash mode nothing is compared: a file that the manifest does not list with that hash is accepted (`C121_violated_hash`, `C121_violated_no_hashes`). |
| C121 | `APIFetch.GetRepository` returns no error when the stream breaks off, so that an incomplete repository counts as complete (`C121_violated_broken_stream`). |

## Coverage of the code

| file | modelled functions (module of `Verif/Model`) | not modelled |
|---|---|---|
| ca/xml.go | `NewXMLList` (CaXml), `DecodeInner` (CaXml), `DecodeXML` (CaXml), `DecodeXMLFull` (CaXml), `DecodeXMLCRFull` (CaXml), `DecodeXMLPRFull` (CaXml) |  |
| cmd/ctrpki/ctrpki.go | `BatchCertificateTransparency` (Ct), `main` (Ct) |  |
| cmd/localrpki/localrpki.go | `main` (LocalRpki) |  |
| cmd/octorpki/ct.go | `SingleSendCertificateTransparency` (Ct), `BatchCertificateTransparency` (Ct), `OctoRPKI.SendCertificateTransparency` (Ct, Fetch) |  |
| cmd/octorpki/filter.go | `FilterInvalidPrefixLen` (Output), `FilterDuplicates` (Output) |  |
| cmd/octorpki/octorpki.go | `OctoRPKI.getRRDPFetch` (Conc, Process), `OctoRPKI.setRRDPFetch` (Conc), `OctoRPKI.getRRDPDomain` (Conc), `OctoRPKI.MainReduce` (Conc, Loop), `ExtractRsyncDomain` (Path), `OctoRPKI.WriteRsyncFileOnDisk` (Cache), `mustMkdirAll` (Cache), `OctoRPKI.ReceiveRRDPFileCallback` (Cache, RrdpLimit), `OctoRPKI.LoadRRDPInfo` (Conc, Json, RrdpState), `OctoRPKI.saveRRDPInfo` (Conc, Json, RrdpState), `OctoRPKI.getRRDPInfo` (Conc, RrdpState), `OctoRPKI.mainRRDP` (Conc, Fetch, Process, RrdpState), `OctoRPKI.fetchRRDP` (Cache, Conc, Fetch, Process, RrdpLimit, RrdpState), `OctoRPKI.newRRDPSystem` (Cache, Conc, Process, RrdpState), `OctoRPKI.rrdpError` (Conc, Fetch, Process, RrdpLimit), `OctoRPKI.mainRsync` (Conc, Process), `mustExtractFoldersPathFromRsyncURL` (Cache, Local), `mustExtractFilePathFromRsyncURL` (Cache, Local), `OctoRPKI.fetchRsync` (Conc, Local), `filterDuplicates` (Output), `OctoRPKI.mainTAL` (Conc, Refresh), `OctoRPKI.fetchTAL` (Conc, Local, Refresh), `OctoRPKI._fetchTAL` (Conc, Local), `OctoRPKI.getHTTP` (Local), `OctoRPKI.fetchTALurl` (Local), `logCollector` (ErrText, Report), `OctoRPKI.generateROAList` (Conc, EndToEnd, NetText, Output, Process, ResJson), `OctoRPKI.signROAList` (Output), `OctoRPKI.mainValidation` (Conc, Ct, EndToEnd, Fetch, Info, Loop, Pki, Process, Refresh, Report, ResJson), `OctoRPKI.ct` (Ct, Fetch), `OctoRPKI.setInfoAuthorities` (Conc), `OctoRPKI.setROAList` (Conc), `OctoRPKI.ServeROAs` (Conc, Json, Loop, Output), `OctoRPKI.ServeResources` (Conc), `OctoRPKI.ServeHealth` (Conc, Loop), `OctoRPKI.ServeInfo` (Conc, Info), `OctoRPKI.Serve` (Routes), `main` (Conc, EndToEnd, Routes), `NewOctoRPKI` (Fetch, Loop, Process, RrdpState), `rsyncFetchJobManager.delete` (Conc, Fetch), `rsyncFetchJobManager.get` (Conc), `OctoRPKI.validationLoop` (Conc, Ct, Loop, Process, Refresh), `OctoRPKI.mustOutput` (Loop), `OctoRPKI.output` (Json), `OctoRPKI.doRRDP` (Conc, Process, RrdpState) | `DefaultBin`, `ReadKey`, `OctoRPKI.setRRDPDomain`, `newOctoRPKIStats`, `OctoRPKI.rsyncError`, `setJaegerError`, `OctoRPKI.getROAList`, `init`, `runningAsRoot`, `newRsyncFetchJobManager`, `rsyncFetchJobManager.set`, `newROAList` |
| cmd/octorpki/rrdp_fetcher.go | `newRRDPFetcher` (Conc, Fetch), `rrdpFetcher.worker` (Conc, Fetch), `rrdpFetcher.done` (Fetch), `rrdpFetcher.wait` (Fetch), `rrdpFetcher.fetch` (Fetch) |  |
| cmd/octorpki/rsync_fetcher.go | `newRsyncFetcher` (Fetch), `rsyncFetcher.worker` (Conc, Fetch), `rsyncFetcher.done` (Fetch), `rsyncFetcher.wait` (Fetch), `rsyncFetcher.fetch` (Fetch) |  |
| ov/ov.go | `NewOV` (Ov), `curValidation.Filter` (Ov), `OriginValidator.Validate` (Ov) |  |
| sync/api/fetch.go | `FetchFile` (Api), `APIFetch.GetFile` (Api), `APIFetch.GetRepository` (Api) |  |
| sync/lib/errors.go | `RRDPError.Error` (RrdpLimit), `RRDPError.SetURL` (RrdpLimit), `NewRRDPErrorFetch` (RrdpLimit) | `callers`, `StackTrace`, `RRDPError.StackTrace`, `RRDPError.SetSentryScope` |
| sync/lib/fetch.go | `NewLocalFetch` (Refresh), `LocalFetch.SetRepositories` (Local), `GetLocalPath` (Path), `ReplacePath` (Local), `FetchFile` (Local), `ParseMapDirectory` (Local), `LocalFetch.GetFile` (Local, Refresh), `LocalFetch.GetFileConv` (Ct, Local, Refresh), `LocalFetch.GetRepository` (Local, Manager) |  |
| sync/lib/rrdp.go | `HTTPFetcher.GetXML` (RrdpLimit), `ParseRoot` (Rrdp, RrdpXml, Xml), `ParseNode` (Rrdp, RrdpXml, Xml), `DecodeRRDPBase64` (Rrdp), `RRDPSystem.FetchRRDP` (Rrdp, RrdpLimit) | `NewHTTPFetcher`, `RRDPSystem.SetSentryScope` |
| sync/lib/rsync.go | `ExtractFoldersPathFromRsyncURL` (Path), `ExtractFilePathFromRsyncURL` (Path), `isRsyncURL` (Path), `FilterMatch` (RsyncOut), `RunRsync` (Local, RsyncOut) |  |
| sync/lib/utils.go | `ExtractRsyncDomainModule` (Path), `AddInMap` (RsyncOut), `ReduceMap` (RsyncOut) |  |
| validator/lib/ber.go | `asn1Structured.encodeTo` (Ber), `asn1Primitive.encodeTo` (Ber), `BER2DER` (Ber), `marshalLongLength` (Ber), `lengthLength` (Ber), `encodeLength` (Ber), `readObject` (Ber), `isIndefiniteTermination` (Ber) |  |
| validator/lib/cert.go | `IPNet.String` (ErrText), `IPNet.IsIPInRange` (Cert), `IPNet.GetAfi` (Cert), `IPNet.GetRange` (Cert), `IPNet.ASN1` (Cert, Ext), `IPAddressRange.String` (ErrText), `IPAddressRange.IsIPInRange` (Cert), `IPAddressRange.GetAfi` (Cert), `IPAddressRange.GetRange` (Cert), `IPToBitString` (Cert), `IPNetToBitString` (Cert), `IPAddressRange.ASN1` (Cert, Ext), `IPAddressNull.String` (ErrText), `IPAddressNull.IsIPInRange` (Cert), `IPAddressNull.GetAfi` (Cert), `IPAddressNull.GetRange` (Cert), `IPAddressNull.ASN1` (Ext), `ASNRange.String` (ErrText), `ASNRange.IsASNInRange` (Cert), `ASNRange.GetRange` (Cert), `ASNRange.ASN1` (Cert, Ext), `ASN.String` (ErrText), `ASN.IsASNInRange` (Cert), `ASN.GetRange` (Cert), `ASN.ASN1` (Cert, Ext), `ASNull.String` (ErrText), `ASNull.IsASNInRange` (Cert), `ASNull.GetRange` (Cert), `ASNull.ASN1` (Cert, Ext), `DecodeIP` (Cert), `DecodeIPMinMax` (Cert), `DecodeIPAddressBlock` (Cert, Ext), `DecodeASIdentifier` (Cert, Ext), `DecodeASN` (Cert, Ext, Pki), `RPKICertificate.HasRRDP` (Ext, Fetch, Process), `RPKICertificate.GetRRDPGeneralName` (Ext, Fetch, Process), `RPKICertificate.GetRsyncGeneralName` (Ext, Fetch, Process), `RPKICertificate.IsIPRangeInCertificate` (Cert), `RPKICertificate.IsASRangeInCertificate` (Cert), `ValidateIPCertificateList` (Cert), `RPKICertificate.ValidateIPCertificate` (ErrText), `ValidateASNCertificateList` (Cert), `RPKICertificate.ValidateASNCertificate` (ErrText), `RPKICertificate.Validate` (Octets, Pki, X509), `RPKICertificate.ValidateTime` (Cert, ErrText), `RPKICertificate.String` (ErrText), `SIA.String` (ErrText), `DecodeSubjectInformationAccess` (Ext), `DecodeKeyAuthority` (Ext), `DecodeKeyIdentifier` (Ext), `GroupIPAddressBlock` (Cert), `EncodeInfoAccess` (Ext), `EncodePolicyInformation` (Ext), `EncodeIPAddressBlock` (Cert, Ext), `EncodeIPAddressBlockVersion` (Cert, Ext), `EncodeASNSeq` (Cert, Ext), `EncodeASN` (Cert, Ext), `EncodeSIA` (Ext), `DecodeCertificate` (Ext, Octets, X509) |  |
| validator/lib/cms.go | `RSAPublicDecrypt` (Cms), `PrivateEncrypt` (RsaEncrypt), `DecryptSignatureRSA` (Cms), `EncryptSignatureRSA` (Cms), `EContentToEncap` (Cms), `EContentToEncapBF` (Cms), `CMS.Sign` (Cms), `CMS.AddCRLs` (CmsEncode), `CMS.CheckSignaturesMatch` (Cms), `CMS.Validate` (Cms), `BadFormatGroup` (Cms), `CMS.GetRPKICertificate` (Octets), `CMS.GetSigningTime` (Cms, Octets, Time), `EncodeCMS` (CmsEncode), `DecodeCMS` (Cms) |  |
| validator/lib/crl.go | `CreateCRL` (Crl) |  |
| validator/lib/manifest.go | `File.GetHash` (Octets), `EncodeManifestContent` (CmsEncode), `DecoderConfig.DecodeManifest` (Cms, CmsEncode, Octets, Time) | `ManifestToEncap`, `DecodeManifest` |
| validator/lib/roa.go | `GroupEntries` (Roa), `EncodeROAEntries` (CmsEncode, Roa), `GetRangeIP` (Cert), `ROAEntry.Validate` (Roa), `RPKIROA.ValidateEntries` (Roa), `ValidateIPRoaCertificateList` (Roa), `ConvertROAEntries` (Roa), `DecoderConfig.DecodeROA` (Cms, Octets, Pki) | `ROAToEncap`, `RPKIROA.ValidateTime`, `RPKIROA.ValidateIPRoaCertificate`, `DecodeROA` |
| validator/lib/tal.go | `RPKITAL.HasRsync` (Tal), `RPKITAL.GetRsyncURI` (Tal), `RPKITAL.GetURI` (Spki), `RPKITAL.CheckCertificate` (Tal), `DeleteLineEnd` (Tal), `CreateTAL` (Tal), `EncodeTAL` (Spki), `HashPublicKey` (Spki), `HashRSAPublicKey` (Spki), `BundleRSAPublicKey` (Spki, Tal), `EncodeTALSize` (Spki, Tal), `DecodeTAL` (Spki, Tal) |  |
| validator/lib/xml.go | `EncodeXMLContent` (CmsEncode), `EncodeXMLData` (CmsEncode), `DecodeXML` (Cms) |  |
| validator/pki/errors.go | `callers` (ErrText), `CertificateError.AddFileErrorInfo` (ErrText), `CertificateError.Error` (ErrText), `CertificateError.SetSentryScope` (ErrText), `NewCertificateErrorValidity` (ErrText), `NewCertificateErrorParent` (ErrText), `NewCertificateErrorRevocation` (ErrText), `NewCertificateErrorResource` (ErrText), `NewCertificateErrorConflict` (ErrText), `NewCertificateErrorManifestRevocation` (ErrText, Report), `NewCertificateErrorCRLRevocation` (ErrText, Report), `FileError.Error` (ErrText), `FileError.SetSentryScope` (ErrText), `FileError.AddFileErrorInfo` (ErrText), `NewFileError` (ErrText, Report), `ResourceError.Error` (ErrText), `ResourceError.SetSentryScope` (ErrText), `ResourceError.AddFileErrorInfo` (ErrText), `NewResourceErrorWrap` (ErrText, Report), `NewResourceErrorHash` (ErrText, Report) | `StackTrace`, `CertificateError.StackTrace`, `FileError.StackTrace`, `ResourceError.StackTrace` |
| validator/pki/pki.go | `Resource.GetIdentifier` (Pki), `NewSimpleManager` (Manager, Report), `SimpleManager.Close` (Report), `SimpleManager.reportError` (Manager, Report), `SimpleManager.reportErrorFile` (ErrText, Manager, Report), `SimpleManager.PutFiles` (Manager), `SimpleManager.HasMore` (Manager), `SimpleManager.GetNextExplore` (Manager), `SimpleManager.GetNextFile` (Manager, Report), `SimpleManager.GetNextRepository` (Manager, Report), `NewValidator` (Pki), `PKIFile.ComputePath` (Octets, Pki), `ObjectToResource` (Octets, Pki), `Validator.AddResource` (Crl, Octets, Pki, Time), `Validator.InvalidateObject` (Pki), `Validator.AddTAL` (Pki), `Validator.AddCert` (ErrText, Pki, Report), `Validator.ValidateCertificate` (ErrText, Pki, Report), `Validator.AddROA` (ErrText, Pki, Report), `Validator.ValidateROA` (ErrText), `Validator.AddManifest` (ErrText, Pki), `Validator.AddCRL` (Crl, Octets, Pki), `DetermineType` (Pki), `ExtractPathCert` (Pki), `ExtractPathManifest` (Pki), `SimpleManager.AddInitial` (Manager), `SimpleManager.InvalidateManifestParent` (Manager, Report), `SimpleManager.InvalidateCRLParent` (Manager, Report), `SimpleManager.ExploreAdd` (LocalRpki, Manager, Report), `SimpleManager.Explore` (Local, Manager, Report) | `Validator.GetRepositories`, `Validator.GetValidROAs` |

## Axioms of each theorem

All names are in the namespace `Verif.Props`.

* **propext** (14 theorems): `C30_path_other`, `C30_violated_trailing`, `C46_violated_signing_time`, `C48_last_line_is_key`, `C50_violated_created`, `C54_trust_anchor_not_covered`, `C59_no_wait_always_served`, `C61_zero_workers_stuck`, `C63_self_issued_twice`, `C64_other_host_ignored`, `C67_first_uri`, `C71_modules_apart_partial`, `C105_server`, `C105_violated_oneoff`
* **propext, Quot.sound** (137 theorems): `C01_empty_indefinite_rejected`, `C01_empty_indefinite_swallows`, `C03_violated_length_and_indefinite`, `C05_decoded_wf`, `C05_malformed_accepted`, `C05_cross_family`, `C07_ip_partition`, `C07_as_partition`, `C07_as_verdicts`, `C07_inherit_valid`, `C09_mapped_form_lost`, `C10_violated_ipv4`, `C10_violated_mapped`, `C12_round_trip_partial`, `C12_violated_lost`, `C12_violated_range`, `C14_violated_child`, `C14_violated_parent`, `C14_no_crash_partial`, `C19_violated`, `C20_violated`, `C21_conflict`, `C21_conflict_signed`, `C22_violated_manifest`, `C23_violated_malformed`, `C24_unregistered`, `C24_tal_file`, `C27_no_eof`, `C30_expansion`, `C30_rejected`, `C30_path`, `C31_file`, `C31_dirs_partial`, `C32_contains_partial`, `C32_no_stop_partial`, `C37_violated_hash_ignored`, `C38_violated_mapped`, `C38_violated_as0`, `C41_entries_exact`, `C41_max_length_bound`, `C41_violated_mapped`, `C41_violated_bad_length`, `C42_violated_mapped`, `C44_strict_accepted`, `C46_violated_validate`, `C46_violated_decodeROA`, `C46_violated_decodeManifest`, `C47_primitive`, `C48_text`, `C48_decode`, `C49_violated_reencode`, `C50_decoded_exact_partial`, `C51_dedup_fixed`, `C52_unreadable_crashes`, `C54_digest_binds`, `C55_unsigned_refused`, `C59_unavailable_before_first_stable`, `C59_health_iff_served`, `C59_violated_unstable_list`, `C59_violated_unavailable_again`, `C60_etag_partial`, `C63_path_unique`, `C63_violated_hole`, `C65_host`, `C65_file_path`, `C65_folders`, `C65_folders_rejects`, `C65_module_partial`, `C65_module_rejects`, `C67_rsync_uri`, `C69_certificate_files`, `C69_count`, `C70_current_manifest`, `C73_sign_succeeds`, `C73_violated_in_memory`, `C74_violated_as_number`, `C75_no_signer_refused`, `C75_accepted_ends_in_null`, `C71_module_names`, `C71_directory_partial`, `C71_inside_partial`, `C71_files_partial`, `C71_no_crash`, `C71_path_text`, `C72_same_file_partial`, `C72_read_back_partial`, `C72_manifest_file_partial`, `C79_failover`, `C80_found_exact`, `C80_missing_reported_partial`, `C80_violated_manifest_files`, `C81_bad_file`, `C81_all_files_partial`, `C81_listing`, `C82_no_strict_hash_partial`, `C82_violated`, `C84_as_remainder`, `C85_violated_safi_inherit`, `C85_violated_dropped`, `C85_violated_long`, `C86_violated_order`, `C87_access_write`, `C88_decode`, `C88_order`, `C88_violated_critical`, `C88_access_points`, `C89_next_round`, `C89_violated_frozen`, `C91_no_signer`, `C92_key`, `C93_page`, `C94_no_panic`, `C97_same`, `C97_quiet`, `C97_violated_absent`, `C97_violated_no_log`, `C103_violated_info`, `C103_violated_roas`, `C105_octorpki`, `C105_violated_no_threads`, `C105_alone`, `C105_chain`, `C105_roa`, `C105_manifest`, `C105_unreadable`, `C105_violated_unreadable`, `C105_progress`, `C105_violated_twice`, `C106_number`, `C112_other_kinds`, `C112_total`, `C116_roa_same`, `C116_manifest_same`, `C116_crl_only`, `C116_crl`, `C121_violated_broken_stream`, `C121_violated_no_hashes`
* **propext, Classical.choice, Quot.sound** (480 theorems): `C01_ber_to_der`, `C01_der_injective`, `C01_exact`, `C01_more_than_ber`, `C02_canonical_and_idempotent`, `C02_trailing_ignored`, `C03_violated_tag`, `C03_no_panic_when_padded_partial`, `C03_no_panic_on_encodings_partial`, `C03_exact`, `C03_otherwise`, `C04_violated_exponential`, `C04_violated_no_linear_bound`, `C04_terminates_partial`, `C04_linear_on_encodings_partial`, `C05_range_sound`, `C05_validated_sound`, `C05_range_complete`, `C06_as_exact`, `C06_as_exact_no_inherit`, `C07_ip_verdicts`, `C07_ip_invalid`, `C08_prefix_range_exact`, `C08_short_mask`, `C09_prefix_round_trip`, `C09_bitstring_round_trip`, `C10_decode_min_max`, `C10_ipv6_round_trip_partial`, `C11_block_round_trip`, `C11_block_perm`, `C13_validity_window`, `C15_chain_of_trust`, `C15_to_anchor`, `C15_issuer_valid`, `C16_acceptance_justified`, `C16_complete`, `C17_two_levels_partial`, `C17_no_overclaim_partial`, `C17_violated`, `C18_terminates`, `C18_removes_subtree`, `C18_removes_nothing_else`, `C18_for_ever`, `C19_later_rejected`, `C19_revoked_partial`, `C19_in_force`, `C19_in_force_partial`, `C20_removes_only_revoked`, `C20_isolated_partial`, `C21_never_replaced`, `C22_roa_backed`, `C22_crl_backed`, `C22_manifest_partial`, `C23_valid_entries_covered`, `C23_exported_authorised`, `C24_pinned`, `C24_history`, `C25_unissued_partial`, `C25_violated_unknown_issuer`, `C25_violated_misplaced`, `C26_once`, `C26_added_once`, `C26_never_lost`, `C26_put_known`, `C26_all_taken`, `C27_bounded`, `C27_terminates`, `C28_hash_enforced`, `C28_content_bound`, `C28_mismatch_adds_nothing`, `C29_listed_partial`, `C29_explored_partial`, `C29_violated_second_listing`, `C31_files`, `C31_violated_dirs`, `C31_violated_empty_base`, `C32_place_partial`, `C32_violated_substring`, `C32_violated_scheme`, `C32_violated_file_as_directory`, `C33_snapshot`, `C33_deltas`, `C33_no_notification`, `C34_failure`, `C34_success`, `C34_monotone`, `C34_kept`, `C35_content_partial`, `C35_violated_withdraw`, `C35_violated_nothing_removed`, `C36_retry_partial`, `C36_crash_partial`, `C36_lost_state_partial`, `C36_violated_withdraw_error`, `C37_violated_witness`, `C38_rfc6811_partial`, `C38_unreadable_route`, `C39_covering_exact_partial`, `C40_insert_total_v4`, `C40_insert_total_v6`, `C40_node_holds_v4`, `C40_node_holds_v6`, `C40_validate_total`, `C41_max_length_exact`, `C42_roa_round_trip`, `C43_validate_exact`, `C43_roa_binding`, `C43_manifest_binding`, `C43_other_content_refused`, `C44_accepted_block_partial`, `C44_violated_forgery`, `C44_violated_forged_object`, `C45_small_set_partial`, `C45_order_irrelevant`, `C45_violated_large_set`, `C45_violated_conforming_refused`, `C46_decodeROA_strict_partial`, `C46_decodeROA_signed_partial`, `C46_decodeManifest_strict_partial`, `C47_reassembly`, `C47_econtent`, `C49_lines`, `C49_keys`, `C49_sizes`, `C49_rsa2048`, `C49_violated_rsa4096`, `C49_round_trip_partial`, `C49_violated_length`, `C51_dedup`, `C52_filter_exact`, `C52_filter_any_text`, `C53_asn_text`, `C53_line_lossless`, `C53_output_exact`, `C53_count_partial`, `C53_violated_count`, `C53_violated_crash`, `C53_violated_asn`, `C54_digest_order`, `C55_signed_verifies`, `C56_stable_sound`, `C56_reduction_exact`, `C56_never_first`, `C56_limit_zero_stops_at_once`, `C57_rounds_between_waits_partial`, `C57_always_pauses`, `C57_violated`, `C58_written_exact`, `C58_ended_has_written_partial`, `C58_ends`, `C58_violated`, `C59_served_only_after_stable_partial`, `C59_served_while_waiting`, `C59_still_served_partial`, `C59_healthy_while_waiting`, `C60_violated`, `C61_exactly_once`, `C61_jobs_accounted`, `C61_at_most_workers`, `C61_no_deadlock`, `C61_schedules_end`, `C61_completes`, `C62_left_to_rsync`, `C62_any_schedule`, `C63_issuer_path`, `C63_validator_objects`, `C63_path_of_valid`, `C63_path_has_no_hole`, `C64_host_permanent_partial`, `C64_first_certificate_binds`, `C64_module_on_bound_host`, `C64_certificate_scheduled`, `C64_violated_module`, `C65_violated_scheme`, `C65_violated_empty`, `C66_type_by_extension`, `C67_hex`, `C68_no_hang`, `C70_stale_manifest`, `C73_roa_sign_decode`, `C73_manifest_sign_decode`, `C73_xml_sign_decode`, `C73_violated_strict`, `C73_octets`, `C74_roa_content_read`, `C74_roa_content_write`, `C75_strict_check_exact`, `C76_manifest_content_read`, `C76_manifest_content_write`, `C76_explicit_version_refused`, `C76_names`, `C76_name_types`, `C77_ipv6_text_exact`, `C77_prefix_text_exact`, `C77_prefix_text_round_trip`, `C77_prefix_text_injective`, `C77_host_bits_cleared`, `C77_read_is_network_form`, `C77_ipv4_text_exact`, `C77_ipv6_text_recommended`, `C77_recommended_unique`, `C71_other_scheme_ends`, `C71_violated_outside`, `C71_violated_other_hosts`, `C72_violated_two_schemes`, `C72_violated_empty_base`, `C72_violated_map_order`, `C79_stored_partial`, `C79_https_only`, `C79_other_files`, `C79_violated_failover`, `C81_violated_nothing_listed`, `C81_types`, `C82_same_dates_partial`, `C78_line_backed_partial`, `C78_held_partial`, `C78_violated_overclaim`, `C78_exact_partial`, `C83_planned_exact`, `C83_violated_no_renewal`, `C83_missing_fetched_partial`, `C83_failover`, `C83_violated_expired`, `C84_dates_partial`, `C84_as_read_partial`, `C84_certificate_backed`, `C84_certificate_complete`, `C84_roa_backed`, `C84_outputs_agree`, `C84_manifest_partial`, `C84_own_fields`, `C84_signed_complete`, `C84_violated_manifest`, `C84_violated_values`, `C85_ip_read`, `C85_ip_sound_partial`, `C85_ip_write`, `C85_ip_round_trip`, `C85_violated_not_null`, `C86_as_read`, `C86_as_sound_partial`, `C86_as_write_partial`, `C86_as_round_trip_partial`, `C86_violated_inherit_last`, `C87_access_read`, `C87_access_sound`, `C87_access_round_trip`, `C87_info_access`, `C87_key_identifiers`, `C87_policy_write_partial`, `C87_violated_no_cps`, `C88_ip_contained`, `C88_as_contained`, `C89_json`, `C89_json_position_partial`, `C89_json_no_panic`, `C89_violated_not_utf8`, `C89_position_was_reached_partial`, `C89_no_panic`, `C89_reached_was_announced`, `C89_one_of_three`, `C89_violated_other_endpoint`, `C90_heals_partial`, `C90_violated_session_returns`, `C90_violated_position_returns`, `C91_created_is_read`, `C91_created_signature`, `C91_created_is_of_issuer`, `C91_created_list_revokes`, `C91_created_iff`, `C91_created_form_partial`, `C91_violated_empty`, `C91_violated_long_key`, `C92_no_panic`, `C92_reads_der`, `C92_reads_rpki`, `C93_round_ends`, `C93_modules_partial`, `C93_every_module`, `C93_module_once`, `C93_url_named_partial`, `C93_last_url_partial`, `C93_violated_stale_url`, `C93_violated_shared_module`, `C94_generalized`, `C94_utc`, `C94_order`, `C94_one_moment`, `C94_fields_in_utc`, `C94_reads_written`, `C94_lists_read`, `C94_manifests_read`, `C94_violated_other_forms`, `C95_only_unknown_issuer_partial`, `C95_exact_partial`, `C95_violated_unknown_issuer`, `C95_violated_validation`, `C95_violated_certificate_root`, `C96_once`, `C96_read`, `C96_every_repository`, `C96_violated_names`, `C96_violated_twice`, `C97_blame_partial`, `C97_losses`, `C97_delivery`, `C97_violated_unread`, `C97_violated_crl`, `C98_listed_partial`, `C98_last_line`, `C98_no_crash`, `C98_violated_short`, `C98_violated_long_line`, `C98_violated_deleting`, `C98_violated_chatter`, `C99_directories`, `C99_one_per_module`, `C99_longest`, `C99_covered_partial`, `C99_iteration`, `C99_violated_order`, `C99_violated_host`, `C100_lines_exact`, `C100_line_backed`, `C100_same_as_octorpki`, `C101_fetched_next`, `C101_fetched_rsync`, `C101_anchor_fetched`, `C101_rsync_only_named`, `C101_rrdp_only_named`, `C101_rrdp_one_host`, `C101_stable_tried`, `C101_line_backed_partial`, `C101_served`, `C101_violated_manifest_module`, `C102_violated_null_text`, `C102_round_ends`, `C102_violated_rrdp_server`, `C102_violated_null_positions`, `C103_no_race_partial`, `C104_loop_ends_partial`, `C104_request_ends_partial`, `C104_violated_resources`, `C105_ctrpki_partial`, `C105_violated_lost`, `C106_node`, `C106_cut`, `C106_root`, `C106_root_cut`, `C106_violated_nothing`, `C106_violated_unchecked`, `C106_violated_twice`, `C106_root_nothing`, `C107_get`, `C107_same`, `C107_failover`, `C107_callback`, `C107_octorpki`, `C107_failover_off`, `C107_message`, `C108_value`, `C108_refused`, `C108_round`, `C108_library`, `C108_violated_short`, `C109_same`, `C109_justified`, `C109_made`, `C109_text`, `C109_text_resources`, `C109_text_hash`, `C109_wrapped`, `C109_tags`, `C109_extras`, `C109_names`, `C109_violated_file`, `C109_violated_end`, `C109_violated_rdi`, `C110_start`, `C110_document`, `C110_redirect`, `C110_served`, `C110_pages`, `C110_violated_empty`, `C110_violated_form`, `C110_violated_no_slash`, `C110_origin`, `C110_preflight`, `C110_violated_spaces`, `C111_document`, `C111_document_exact`, `C111_unambiguous`, `C111_reads`, `C111_exact`, `C111_refuses`, `C111_determines`, `C111_cut`, `C111_answer_cut`, `C111_crash`, `C111_violated_crash`, `C111_made_lists`, `C111_safe`, `C111_violated_names`, `C112_identifier`, `C112_identifies`, `C112_written`, `C112_read`, `C112_exact`, `C112_check`, `C112_violated_lax`, `C113_token`, `C113_scan`, `C113_node`, `C113_root`, `C113_cut`, `C113_root_cut`, `C113_mismatch`, `C113_size`, `C113_chars`, `C113_no_entities`, `C113_violated_prefix`, `C114_message`, `C114_inner`, `C114_inner_error`, `C114_full`, `C114_child_request`, `C114_parent_response`, `C114_ends`, `C114_cut`, `C114_one_kind`, `C114_list`, `C114_violated_behind`, `C114_violated_space`, `C115_exact`, `C115_once`, `C115_decode`, `C115_signed`, `C115_violated_trailing`, `C115_no_panic`, `C115_signer`, `C115_violated_version`, `C115_violated_usage`, `C115_violated_path`, `C115_violated_critical`, `C115_reads`, `C116_certificate`, `C116_roa`, `C116_manifest`, `C116_signed`, `C116_signed_only`, `C116_violated_crl_usage`, `C116_line`, `C117_roa`, `C117_manifest`, `C117_exact`, `C117_run`, `C117_violated_list`, `C117_violated_octets`, `C118_line`, `C118_line_partial`, `C118_lists`, `C118_violated`, `C118_list_octets`, `C119_published_partial`, `C119_chain_partial`, `C119_roa_partial`, `C119_issued`, `C119_violated`, `C119_line_partial`, `C120_certificate`, `C120_roa`, `C120_root`, `C120_root_roa`, `C121_file`, `C121_crash`, `C121_repository`, `C121_violated_hash`, `C122_exploration`, `C122_list`, `C122_repositories`
