{
 "C01": "Every BER encoding (definite, non-minimal, indefinite) of every value is transcoded to its DER encoding; DER is injective. C01_exact: exactly what is accepted, on arbitrary octets.",
 "C02": "DER input is a fixed point; the output is always a fixed point; trailing bytes are ignored.",
 "C03": "False as stated: inputs that end inside a tag, a length or an indefinite object crash. C03_exact says exactly which inputs crash; the partial theorems name large sets that do not.",
 "C04": "False as stated: a family of inputs of linear size has exponentially large output. Proved: termination on every input, and the bound on all encodings.",
 "C05": "Soundness for all well-formed entries, converse for plain addresses; witnesses for malformed entries and for IPv4-mapped cross-family acceptance.",
 "C06": "Exact, with and without inherit.",
 "C07": "Partition, order and the meaning of each verdict, for IP and AS.",
 "C08": "Exact for all proper prefixes; short masks are an error.",
 "C09": "Both directions; prefixes in mapped 16-byte form with a 4-byte mask are outside (witness).",
 "C10": "False for IPv4 (the encoder crashes on every 4-byte address) and for IPv6 ranges touching the IPv4-mapped block. Proved: decoding of both families, IPv6 round trip.",
 "C11": "For all encodable lists; inherit collapses its family.",
 "C12": "False when inherit follows another entry. Proved for lists without inherit and for inherit alone.",
 "C13": "Exact.",
 "C14": "False: an unknown address family decodes and then crashes the check, as child or as parent. Proved for known families.",
 "C23": "For all histories in which ROAs come from the decoder. A malformed prefix is a counterexample for the entry part.",
 "C41": "Exact for proper, not IPv4-mapped prefixes; counterexamples for mapped prefixes and out-of-range lengths.",
 "C42": "For all lists of entries in network form; a mapped IPv6 prefix is a counterexample.",
 "C48": "For all texts with comments, LF/CRLF and any wrapping; the ASN.1 layer is a parameter.",
 "C49": "Round trip holds exactly when the length of the key info is a multiple of three: always for the 2048-bit keys of the RPKI, never for 4096-bit keys (padding is dropped on writing but required on reading).",
 "C50": "False for TALs made by CreateTAL (crash on every RSA certificate). Exact and total for TALs read from files.",
 "C67": "Both cases, for all URI lists.",
 "C15": "For all histories; trust anchors are the certificates offered with the trust flag. C15_to_anchor follows the chain certificate by certificate up to one that was itself offered as a trust anchor, not merely one with the same key id.",
 "C16": "Both directions. Resources are checked one level above an inheriting issuer, see C17.",
 "C17": "False: behind two inheriting certificates nothing is checked (witness). Proved: two levels always, and the full property when no inheriting certificate has an inheriting issuer.",
 "C18": "For every state: ends, removes everything that depends on the object, nothing outside of what is below it, and never comes back.",
 "C19": "False when an issuer has two certificates with one serial (witness). Proved for certificates added later, and for all when the serial is unique.",
 "C20": "False for key ids of different lengths (key id and serial are glued together). Proved for equal lengths; removal is always limited to the issuer's listed certificates and what is below them.",
 "C21": "For all histories and states, also through ROAs and manifests.",
 "C22": "ROAs and CRLs proved; false for manifests, which stay in the table when their certificate is invalidated (witness); proved that they stay stored.",
 "C24": "One step (both directions) and over histories.",
 "C25": "False: an unknown issuer crashes AddResource in every state, and a misplaced CRL is applied although it is rejected. Proved: AddCRL of an unissued CRL changes nothing.",
 "C30": "Exact for steps followed by a separator, path computation exact; false for a name that is or ends in '..' (witness).",
 "C66": "Exact.",
 "C26": "For the whole life of a manager, any repository and any settings.",
 "C27": "Bound by the number of names; and termination in manifest mode whenever the FileSeeker knows finitely many paths.",
 "C28": "The equality that is enforced, its meaning for contents when the FileSeeker's hashes bind, and that a mismatch adds nothing.",
 "C29": "Proved for every listed file that is explored, in every order. False for a path that two manifests list: the second CA stays valid (witness).",
 "C68": "Provided the decoders end.",
 "C69": "Exact.",
 "C31": "Files: proved for every URI, operating system behaviour and whole run, with a non-empty cache directory name. Directories: violated (made before the URI is checked), partial for URIs without \"../\". There are no symbolic links in the model.",
 "C32": "Violated: the domain is searched anywhere in the URI, other schemes and a file used as a directory end the process (witnesses). Proved: nothing is written unless the URI contains the domain, the file then lies in the host's directory or has an element ending in \"rsync:\", and when the process goes on.",
 "C33": "For every client state, notification, server behaviour and callback.",
 "C34": "Failure at any point; the serial never goes back within a session; also for the entries kept between runs.",
 "C35": "Content proved for every consistent server history. Absence of withdrawn or unlisted files is violated: nothing is ever removed.",
 "C36": "Failed runs, kills at any call with any torn content, lost state. Partial because errors of withdrawals are ignored (witness).",
 "C37": "Violated: the hashes have no influence on the run at all.",
 "C65": "Paths exact. Modules exact for rsync URLs; other schemes and empty names are accepted (witnesses).",
 "C70": "Strict hash mode; both bounds; permanent.",
 "C38": "Proved for all tables (fewer than 2^31-2 entries) and all routes with proper prefixes. Missing: IPv4-mapped IPv6 prefixes with a 128-bit mask, for which the property is false (C38_violated_mapped). C38_violated_as0 records that AS 0 is not treated specially.",
 "C39": "Proved for all tables (fewer than 2^31-2 entries) and all routes with proper prefixes: multiset, order by length, order of insertion within one prefix. Missing: the IPv4-mapped prefixes of C38_violated_mapped.",
 "C40": "No panic and one prefix per node for insertion sequences of any length, addresses, prefix lengths; contents of the nodes for fewer than 2^31-2 insertions (the code's tag keys have 32 bits). NewOV and Validate never panic.",
 "C43": "Exact for Validate; carried to DecodeROA and DecodeManifest for every input. SHA-256 is a parameter; RSA is the modelled arithmetic. The octets hashed for the signature are those of C45. Octets after the content element are not covered (C47_primitive).",
 "C44": "Violated: forgery without private key under every exponent-3 key of at least 1306 bits, for every content. Proved: complete blocks are accepted, and what an accepted block must contain.",
 "C45": "Exact for sets of fewer than 128 octets; violated for every larger set, and conforming objects are then refused.",
 "C46": "Violated: Validate, GetSigningTime, non-strict DecodeROA and (also strict) DecodeManifest crash. Proved: strict DecodeROA never crashes; strict DecodeManifest only inside the BER converter.",
 "C47": "All contents and all ways to cut them, up to the 2^31 octets that encoding/asn1 accepts.",
 "C73": "Reading back proved for all contents and keys (RSA correctness proved with Fermat's theorem); Sign succeeds exactly from 62 octets on. Violated: Validate on the object in memory always fails, and the strict decoders refuse library-made objects for every certificate not signed with bare rsaEncryption. SHA-256, times and certificate decoding are parameters.",
 "C74": "Exact both ways up to the 2^31 octets of encoding/asn1 and AS numbers below 2^63; violated for AS numbers outside 32 bits (witnesses).",
 "C75": "Exact for DER certificates; the class of the parameters' tag is not checked by the code and appears in the statement.",
 "C76": "Exact both ways; times are parameters. The hash algorithm of the manifest is read but not checked by the code.",
 "C51": "Exact for every list whose AS numbers are written without '/' (octorpki writes AS and a number).",
 "C52": "Exact for every list of readable prefixes, also unusual texts; an unreadable text crashes the filter.",
 "C53": "The list is proved exact for well-formed authorisations, with and without the filter. Violated: the count includes duplicates and filtered entries; a malformed prefix authorised by a malformed certificate entry crashes the program (filter on) or is published as <nil>; AS numbers outside 32 bits are published and read as 0.",
 "C54": "Order independence and binding of the multiset (and of the dates for the second digest), up to collisions of the hash. The trust anchor is not covered.",
 "C55": "ECDSA is a parameter with the usual correctness hypothesis; hexadecimal and DER are modelled.",
 "C60": "Violated for every hash function: same second and same count give the same tag. Partial: the tag determines the time and the count up to collisions.",
 "C77": "net.IP.String, IPNet.String and ParseCIDR modelled from the source of Go 1.19. Round trip, uniqueness and network form; the texts that are read are exactly those of RFC 4291 (IPv4: dotted decimal without leading zeros).",
 "C56": "Over arbitrary sequences of discoveries. The limit counts as in the code: AtLimit says what it means in terms of the rounds. With max.iterations ≤ 0 the first round is declared stable by the limit.",
 "C57": "The code compares after the increment with '>': max+1 rounds are possible, for every limit (C57_violated); C57_rounds_between_waits_partial is the exact bound; C57_always_pauses is the liveness part.",
 "C58": "Violated: at the limit the flag is set after the output step, so a one-off run with output.wait ends without output. Exact description of what is written, and the partial theorem for ends by a quiet round or without waiting.",
 "C59": "Requests read the flags and the list at three independent moments. Violated twice: the list of an unstable round is served while the old flag is set, and a new repository brings 503 back.",
 "C61": "Step relation over all schedules. A fetch that starts is assumed to end (finish may come at any time). Zero workers deadlock.",
 "C62": "Also combined with the pool: the same modules are left whatever the schedule.",
 "C63": "Also linked to reachable validator states: no hole in the path if the trust anchors name no issuer or a valid one; otherwise a nil file and a crash (C63_violated_hole).",
 "C64": "The host is permanent and set by the first certificate; the module can be replaced by another one of the same host (C64_violated_module).",
 "C71": "Exact for host and module names other than '..'; for those the property is false (C71_violated_outside, C71_violated_other_hosts). rsync itself is a parameter that is assumed to write only below the directory it is given.",
 "C72": "False for URIs that contain rsync:// twice, for an empty cache directory, and for several overlapping mappings (order of a Go map).",
 "C79": "The HTTP part holds; the failover to rsync turns the place of the certificate into a directory (C79_violated_failover).",
 "C80": "Holds for files known by their full URI; for files listed in manifests the module is computed from the bare name, so nothing is ever reported (C80_violated_manifest_files).",
 "C81": "False for rsync URIs (the URI itself is listed instead of the local path); proved for a repository named by its local path.",
 "C82": "Violated: the manifest check under strict hashes (CheckExpired) reads time.Now(), not the chosen time; C82_violated gives two days with different results. Proved: no dependence without strict hashes, and with them only through which manifests are out of their dates.",
 "C78": "Soundness (signature, chain, certificate by certificate, to the certificate that the TAL says where to find, with the key that the TAL says, EE resources, manifest listing with hash) proved for every line; coverage by all issuers proved when no two inheriting certificates follow each other; exactness for well-formed VRPs. Violated: a list with 11.0.0.0/8 from a trust anchor that holds only 10.0.0.0/8 (two inheriting certificates in a row).",
 "C83": "Proved: planned exactly if no certificate with the key of the TAL is in the cache; a planned download is stored and used (one TAL). Violated: the mark is set by the key alone, before the dates are checked, so an expired or replaced certificate with the TAL's key is never downloaded again over HTTPS, for any number of rounds and all answers.",
 "C84": "Proved: certificates and ROAs shown are backed (chain, file, manifest hash in strict mode with unchanged files), complete, and agree with the list. Partial: dates only from 1677 to 2262, AS 0 not readable; violated: a revoked manifest stays in the file (its list is not cleared), dates after 2262 wrap, AS 0 is shown as an empty object. Not modelled: the fields name, emitted and mft-number.",
 "C85": "Reading of DER and writing proved in full (bit strings no longer than an address; lists as in C11). Soundness is partial: what is accepted is characterised exactly by LaxBlock, which is wider than the grammar. Violated: any element of tag number 5 counts as inherit, unknown elements are dropped, SAFI on inherit loses the family, range ends longer than an address are cut.",
 "C86": "Reading proved in full; soundness against LaxAS; writing and round trip without inherit among numbers. Violated: inherit after a number is written as octets outside the grammar and read as nothing; fields in the wrong order are dropped.",
 "C87": "Proved except for the policy extension without CPS address, which is written with an empty list of qualifiers (violated). Object identifiers are kept as contents octets; arcs below 2^28.",
 "C88": "x509.ParseCertificate is a parameter (any function from octets to a list of extensions). Proved: exact effect of the extensions, order, access points, containment from octets. Violated: the critical bit is not looked at and unknown critical extensions are ignored (also RFC 8360 resources).",
 "C89": "Proved for the rsync module, with no panic on the map, and the exact three positions the next round may find; false for the endpoint: positions are keyed by rsync module, so a second endpoint with the same module can freeze the first. encoding/json is modelled, and C89_json proves the laws that the other theorems assume of it; false for modules whose names are not UTF-8.",
 "C90": "Proved for servers whose sessions and dropped deltas do not come back and for positions that do not come back once lost (withdrawn files stay, C35). False otherwise: two witnesses.",
 "C91": "Proved, with two deviations as negations: a list without revoked certificates is written with an empty sequence, which RFC 5280 forbids; a key identifier of 126 octets or more is not recognised by the validator. Reading of times and of names are parameters (a law states that written times are read back).",
 "C92": "Proved for all octets (safety) and for every list in DER form. Reading of times and names are parameters.",
 "C93": "Partial: modules, uniqueness, naming and no panic are proved for all rounds and growth policies. The claim that the URL of the last certificate is shown holds for the last module of each list and is false in general (stale pointer), and a module shared by two trust anchors is shown under the first only; both are proved as negations.",
 "C94": "Acceptance is characterised exactly for both types, with value, order, read back and no panic. Partial in one respect: zones other than Z and UTCTime without seconds are accepted although RFC 5280 4.1.2.5 forbids them; this is proved as a negation.",
 "C95": "Partial because the property as a user wants it is false: a revocation list with an unknown authority key identifier dereferences nil, also through a whole run over several TALs, and so does a root certificate file with CRL distribution points. Proved: this is the only crash (either mode), and exactly it in manifest mode, given decoders that do not panic on the octets (C03, C14 and others treat these).",
 "C96": "Reading each repository once and completely is proved in full. The last sentence is false and its negation is proved: the files of a repository are kept under a path that has the directory twice, so a file that was read on its own is given to the validator again.",
 "C97": "Blame, reasons, losses, absence of effects and delivery are proved. Not true, with negations proved: a revocation list that is rejected is reported as a nil error without file or reason; a listed file that is not there is not reported when manifests are not strict; without a log rejected files are not reported at all; nothing waits for the collector, so reports can be unread when the program ends. Texts of the errors are not modelled.",
 "C98": "The list is exact for lines that fit; not true, with negations proved: a line of 64 KiB (the server's message of the day can have one) hides everything after it without an error, a name that begins with 'deleting ' is listed under another name as deleted, a line of a message that ends like an object is listed, and a URL of less than eight bytes crashes. What rsync prints in front of names is part of the specification (Spec/RsyncOut). The error of the tool is not modelled here.",
 "C99": "All parts are proved for every history and order of iteration, except that nothing is left out: that holds for URLs added before those below them; the count of an entry that exists is added to a copy, so the other order loses the URL (negation proved), and so is a URL without module (negation proved).",
 "C100": "Exactness and absence of crashes hold in both modes; backing and paths are for manifest mode. The JSON text of the output, the parsing of flags and the writing of the file are not modelled.",
 "C101": "Named means: the first repository that the certificate names, with an RRDP URL (if any) bound to the same host; a certificate whose RRDP URL is bound to another host is left out (C64). Violated for manifests that lie elsewhere. Lines are backed in manifest mode, as in C78.",
 "C102": "Manifest mode, as in C78. Files do not change between an exploration and the list of the same round (nobody else writes the cache). That explorations end without a crash is C95; the two violations are crashes of the RRDP phase in a run of the whole program.",
 "C103": "The goroutines are modelled by what they read, write, lock and load; the values that decide branches are inputs. Without the senders of Certificate Transparency. Exposed fields (Spec/Conc) are what is missing; for each of them a racing run is given.",
 "C104": "Missing: requests for resources that are ready, for which the claim is false. Downloads and commands are taken to return. A waiting writer keeps new readers out, as in sync.RWMutex.",
 "C105": "Holds for octorpki in server mode with threads (order, content, exactly once, termination). Violations proved: one-off mode never submits, zero threads hang, ctrpki loses up to n chains (exactly reachable for every n and every list of at least 2n chains), repeats chains over TALs, crashes on an unreadable file.",
 "C106": "The scanner of encoding/xml is a parameter; the decoding of its tokens into the structs is modelled. Reading, cut documents and numbers are proved; the violations (documents without an element, unchecked kind/session/serial, doubled objects) are theorems.",
 "C107": "The run with its errors is proved equal to the run of Model/Rrdp after forgetting the errors. Assumed: the error of a body that breaks off has another text than the one for the limit.",
 "C108": "Garner's recombination is proved for any number of primes with Mathlib's number theory. The violation is shown with a key of thirteen primes.",
 "C109": "C109_same ties the errors to the decisions of the model of pki.go. Not modelled: stack traces and extras that hold whole structures. Three violations are proved.",
 "C110": "The multiplexer is the one of net/http before Go 1.22, which a module with go 1.19 gets. Not covered: the method CONNECT, hosts that begin with a slash, origins that are not ASCII. Four violations are proved.",
 "C111": "encoding/json is modelled function by function: the writer with its escapes, the syntax check (a state machine over octets), the reader. The reader is characterised in both directions: it accepts exactly the grammar of RFC 8259, at most 10000 brackets deep, but for strings with octets that are not UTF-8 or surrogates that are not a pair. Two violations are proved.",
 "C112": "encoding/asn1 on keys is modelled down to octets, which removes the parameter of C48-C50. The exact set of infos that are read as a key is proved; that it is larger than DER is the violation. Keys of 2 GiB and more are out of scope (encoding/asn1 reads no such element).",
 "C113": "The scanner of encoding/xml is modelled down to octets (strict mode, no charset reader), which removes the parameter of C106. Exact: a token is read if and only if the grammar of Spec/Xml has it there. Only names beyond ASCII stay a parameter (tables of Unicode). The violation is about names with a prefix.",
 "C114": "Decoder.Decode of encoding/xml is modelled for the structs of ca/xml.go, on the scanner of C113. All decoders are characterised in both directions by a grammar of octets. Only names beyond ASCII stay a parameter. DecodeXML gives with an error a message that is filled in part; the model gives none. The structs for publisher requests and repository responses have no decoder.",
 "C115": "crypto/x509 of Go 1.19 (parser.go) and the reader of x/crypto/cryptobyte are modelled down to octets; both directions are proved against a specification of the octets. Parameters (Lib): UTF-8 and UTF-16 checks of names, keys other than RSA, and the checks of subjectAltName, nameConstraints and extKeyUsage, whose values nothing uses. The signature check itself is a parameter. Fields of the Go struct that nothing reads are not modelled.",
 "C116": "The decoders of the validator put together from the octet models (X509, Cms, CmsEncode, Time, Crl, Spki); C78 and C15 instantiated with them. Parameters: SHA-1, SHA-256, the check of a signature with a key, texts of names. Manifest mode. Coverage of the prefix by the EE certificate for proper prefixes; for the issuers see C78.",
 "C117": "C117_roa, C117_manifest: exact conditions on octets; C117_exact: the hypothesis of C95 is equivalent to a condition on octets; C117_run: the exploration in manifest mode. Hypothesis: the library parts that are not modelled come back (Quiet). Roots are TAL files.",
 "C118": "C118_line: every line, with the exact exception (a later certificate with the same issuer key and serial); C118_line_partial: with different serials, without exception; C118_lists, C118_list_octets: the lists in force and their octets; C118_violated: a line of a ROA whose certificate is on the list in force is published, because another ROA's certificate has the same serial.",
 "C119": "C119_published_partial: one ROA below a valid issuer; C119_chain_partial, C119_roa_partial: whole chains; C119_issued: what the issuer must hold, in terms of addresses and AS numbers; C119_violated: a refused certificate with the same key id keeps the ROA out. C119_line_partial: from the files delivered in an exploration to the lines of the list (for well-formed VRPs, as C78_exact_partial).",
 "C120": "C120_certificate and C120_roa rest on explore_follows: the exploration is a history of additions, in the order of the deliveries, and of invalidations with a reason. C120_root and C120_root_roa: the first cause, along the chain of issuers (for ROAs whose certificate was not also delivered as a TAL's).",
 "C121": "C121_file, C121_repository, C121_crash: what is read, and what crashes. C121_violated_broken_stream, C121_violated_no_hashes (strict hash mode changes nothing, for every exploration) and C121_violated_hash (a listed ROA with a wrong hash, whatever the hash function is).",
 "C122": "C122_exploration: same validator, files and deliveries. C122_list: the same list, for any number of TALs. C122_repositories: the list made from a cache does not depend on which repositories the fetcher knows. Maps are walked in the same order in both executions. The example compares a source without hashes that fails where the other has no file."
}