{"id": "C01", "title": "BER to DER normalisation", "statement": "For every tag-length-value tree and every BER encoding of it (each constructed node may use a definite or an indefinite length, each definite length may be non-minimal), followed by any bytes, BER2DER returns the definite, minimal-length DER encoding of the same tree.", "quantifier": "all TLV trees, all mixes of length forms, all trailing bytes", "why_tests_cant": "trees are unbounded in depth and width and each node has several encodings", "anchors": ["validator/lib/ber.go:BER2DER", "validator/lib/ber.go:readObject", "validator/lib/ber.go:encodeLength"]}
{"id": "C02", "title": "DER is a fixed point of BER2DER", "statement": "Whenever BER2DER succeeds, its output is a canonical DER encoding of some TLV tree, and applying BER2DER to that output returns it unchanged.", "quantifier": "all byte strings on which BER2DER succeeds, with output below 2^31 bytes", "why_tests_cant": "the set of accepted byte strings is infinite and includes malformed nestings", "anchors": ["validator/lib/ber.go:BER2DER", "validator/lib/ber.go:readObject"]}
{"id": "C03", "title": "BER2DER never panics", "statement": "On every byte string BER2DER returns a result or an error; it never terminates the process by indexing outside the input.", "quantifier": "all byte strings", "why_tests_cant": "crashing inputs are a sparse subset of an infinite set", "anchors": ["validator/lib/ber.go:readObject"]}
{"id": "C04", "title": "BER2DER output size is bounded by its input", "statement": "The output (and therefore the work done) of BER2DER is at most linear in the size of its input.", "quantifier": "all byte strings", "why_tests_cant": "a growth rate is a statement about an infinite family of inputs", "anchors": ["validator/lib/ber.go:readObject", "validator/lib/ber.go:asn1Structured"]}
{"id": "C05", "title": "IP range containment is sound", "statement": "If a certificate reports that a range [min,max] is in its IP resources, then one of its resource entries contains every address between min and max of that length.", "quantifier": "all certificates (any list of prefixes, ranges and inherit entries) and all address pairs", "why_tests_cant": "2^128 addresses and unbounded resource lists", "anchors": ["validator/lib/cert.go:IsIPRangeInCertificate", "validator/lib/cert.go:IsIPInRange"]}
{"id": "C06", "title": "AS range containment is exact", "statement": "A certificate reports an AS range as contained exactly when one of its AS entries that is met before any inherit entry covers the whole range.", "quantifier": "all AS lists and all integer ranges", "why_tests_cant": "unbounded lists and integers", "anchors": ["validator/lib/cert.go:IsASRangeInCertificate", "validator/lib/cert.go:IsASNInRange"]}
{"id": "C07", "title": "Resource lists are split exactly three ways", "statement": "Checking a list of child IP or AS resources against a parent puts every child resource in exactly one of valid, invalid and check-the-parent, keeping order; a resource is valid only if contained in the parent and check-parent only if the parent inherits.", "quantifier": "all child and parent resource lists", "why_tests_cant": "unbounded lists, every combination of entry kinds", "anchors": ["validator/lib/cert.go:ValidateIPCertificateList", "validator/lib/cert.go:ValidateASNCertificateList"]}
{"id": "C08", "title": "A prefix's range is exactly its addresses", "statement": "For every prefix with a canonical mask, the first and last addresses computed for it are such that an address of that family is in the prefix exactly when it lies between them.", "quantifier": "all IPv4 and IPv6 prefixes and addresses", "why_tests_cant": "2^32*33 and 2^128*129 prefixes times all addresses", "anchors": ["validator/lib/roa.go:GetRangeIP", "validator/lib/cert.go:GetRange"]}
{"id": "C09", "title": "Prefix bit-string round trip", "statement": "Encoding a prefix as an RFC 3779 bit string and decoding it with the same address family gives back the same network address and mask.", "quantifier": "all IPv4 and IPv6 prefixes", "why_tests_cant": "all addresses times all lengths", "anchors": ["validator/lib/cert.go:IPNetToBitString", "validator/lib/cert.go:DecodeIP"]}
{"id": "C10", "title": "Address range round trip", "statement": "Encoding an address range and decoding it gives back the same range (min padded with zeros, max padded with ones), for IPv4 and IPv6, without crashing.", "quantifier": "all address ranges of both families", "why_tests_cant": "all pairs of addresses", "anchors": ["validator/lib/cert.go:IPToBitString", "validator/lib/cert.go:DecodeIPMinMax"]}
{"id": "C11", "title": "IP block grouping keeps every resource", "statement": "Grouping IP resources for encoding puts each prefix and range in the group of its own family exactly once and in order, and the encoded families appear in increasing order, each once.", "quantifier": "all lists of IP resources", "why_tests_cant": "unbounded lists", "anchors": ["validator/lib/cert.go:GroupIPAddressBlock", "validator/lib/cert.go:EncodeIPAddressBlock"]}
{"id": "C12", "title": "AS resource round trip", "statement": "Decoding the encoded AS identifiers returns the same ids, ranges and inherit markers in the same order.", "quantifier": "all lists of AS numbers, ranges and RDIs", "why_tests_cant": "unbounded lists", "anchors": ["validator/lib/cert.go:EncodeASNSeq", "validator/lib/cert.go:DecodeASIdentifier", "validator/lib/cert.go:DecodeASN"]}
{"id": "C13", "title": "Validity window", "statement": "A certificate is accepted at time t by the time check exactly when notBefore <= t <= notAfter.", "quantifier": "all times and windows", "why_tests_cant": "all time values including the boundaries", "anchors": ["validator/lib/cert.go:ValidateTime"]}
{"id": "C14", "title": "Decoded certificates never crash the resource check", "statement": "For every decodable IP resource extension, checking it against any parent certificate terminates with a verdict and does not crash the validator.", "quantifier": "all decoded resource extensions, all parents", "why_tests_cant": "adversarial extensions are arbitrary", "anchors": ["validator/lib/cert.go:DecodeIPAddressBlock", "validator/lib/cert.go:ValidateIPCertificateList", "validator/lib/roa.go:GetRangeIP"]}
{"id": "C15", "title": "Chain of trust is closed in every history", "statement": "After any sequence of additions, CRLs and invalidations, every valid object that was not added as a trust anchor has an issuer (by authority key id) that is itself currently valid.", "quantifier": "all finite histories of Validator operations", "why_tests_cant": "histories are unbounded and interleave insertions, revocations and invalidations", "anchors": ["validator/pki/pki.go:AddCert", "validator/pki/pki.go:InvalidateObject", "validator/pki/pki.go:AddCRL"]}
{"id": "C16", "title": "Acceptance is justified", "statement": "A non-trust-anchor certificate is reported valid only if, at that moment, its issuer was valid, its signature verifies under the issuer's key, the time is in its window, its serial is not revoked for that issuer, and none of its resources were found outside the issuer chain.", "quantifier": "all validator states reachable by any history, all certificates", "why_tests_cant": "depends on the whole earlier history", "anchors": ["validator/pki/pki.go:AddCert", "validator/pki/pki.go:ValidateCertificate"]}
{"id": "C17", "title": "No over-claim through inheritance", "statement": "Every IP and AS resource explicitly listed in an accepted certificate is contained in an explicit resource of some ancestor, with only inheriting certificates in between.", "quantifier": "all chains of any depth, any mix of inherited and explicit resources", "why_tests_cant": "chain depth is unbounded; the failure needs at least two consecutive inheriting ancestors", "anchors": ["validator/pki/pki.go:ValidateCertificate"]}
{"id": "C18", "title": "Invalidation removes exactly the subtree, for ever", "statement": "Invalidating an object removes it and every valid object below it, removes nothing else, and no later operation makes any of them valid again.", "quantifier": "all reachable states, all later histories", "why_tests_cant": "needs a closure argument over arbitrary trees and all continuations", "anchors": ["validator/pki/pki.go:InvalidateObject", "validator/pki/pki.go:AddCert"]}
{"id": "C19", "title": "Revocation is effective", "statement": "After a CRL of issuer A listing serial s is accepted, no certificate issued by A with serial s is valid, whether it was added before or is added later, for the rest of the history.", "quantifier": "all histories before and after the CRL", "why_tests_cant": "order of arrival of certificates and CRLs is arbitrary", "anchors": ["validator/pki/pki.go:AddCRL", "validator/pki/pki.go:ValidateCertificate"]}
{"id": "C20", "title": "Revocation is isolated", "statement": "A CRL of one issuer never causes a certificate of a different issuer to be rejected as revoked.", "quantifier": "all pairs of issuer key identifiers and serial numbers", "why_tests_cant": "key identifiers and serials range over all byte strings and integers", "anchors": ["validator/pki/pki.go:AddCRL", "validator/pki/pki.go:ValidateCertificate"]}
{"id": "C21", "title": "First object wins", "statement": "Once an object is stored under a subject key id it is never replaced, and a later certificate with the same key id is reported invalid and changes nothing in the set of valid objects.", "quantifier": "all histories", "why_tests_cant": "all orders of arrival", "anchors": ["validator/pki/pki.go:AddCert"]}
{"id": "C22", "title": "Valid ROAs, manifests and CRLs are backed by valid certificates", "statement": "In every reachable state each entry in the valid ROA and valid manifest tables has a currently valid EE certificate, and each valid CRL was signed by a certificate of the store.", "quantifier": "all finite histories", "why_tests_cant": "later invalidations can break an entry that was right when added", "anchors": ["validator/pki/pki.go:AddROA", "validator/pki/pki.go:AddManifest", "validator/pki/pki.go:InvalidateObject"]}
{"id": "C23", "title": "Exported ROA entries are authorised", "statement": "Every entry exported from a valid ROA has prefix length <= max length <= family size and all its addresses in one resource entry of the ROA's EE certificate, and the ROA's CMS check succeeded.", "quantifier": "all ROAs, all histories", "why_tests_cant": "all entry lists and resource lists", "anchors": ["validator/pki/pki.go:AddROA", "validator/lib/roa.go:ValidateEntries", "validator/lib/roa.go:ValidateIPRoaCertificateList"]}
{"id": "C24", "title": "Trust anchor key pinning", "statement": "A certificate fetched for a TAL is added as a trust anchor only if its RSA public key has the modulus and exponent of the TAL.", "quantifier": "all TALs and certificates", "why_tests_cant": "all keys and algorithms", "anchors": ["validator/pki/pki.go:AddResource", "validator/lib/tal.go:CheckCertificate"]}
{"id": "C25", "title": "A misplaced CRL is harmless", "statement": "A CRL whose issuer is unknown, or which is published under the wrong parent, is rejected with an error, without crashing and without changing the set of valid objects.", "quantifier": "all CRLs, all states", "why_tests_cant": "all states and publication points", "anchors": ["validator/pki/pki.go:AddResource", "validator/pki/pki.go:AddCRL"]}
{"id": "C26", "title": "Every path is explored at most once", "statement": "Over the whole life of a manager each repository path enters the queue at most once, is fetched at most once, and is never lost from the queue.", "quantifier": "all repositories and all sequences of discoveries", "why_tests_cant": "object graphs may be cyclic and of any size", "anchors": ["validator/pki/pki.go:PutFiles", "validator/pki/pki.go:GetNextFile", "validator/pki/pki.go:HasMore"]}
{"id": "C27", "title": "Exploration terminates", "statement": "If the set of paths that objects can name is finite, exploration ends after at most that many steps, returns that many explored files and leaves the queue empty; the internal end-of-queue error is never produced.", "quantifier": "all repositories with finitely many names, including cyclic ones", "why_tests_cant": "graphs of any size and shape", "anchors": ["validator/pki/pki.go:Explore", "validator/pki/pki.go:GetNextExplore"]}
{"id": "C28", "title": "Manifest hashes are enforced", "statement": "In manifest mode with strict hashes, a fetched object whose SHA-256 differs from the hash its manifest lists is never added to the validator.", "quantifier": "all files, hashes and validator states", "why_tests_cant": "all data values", "anchors": ["validator/pki/pki.go:Explore"]}
{"id": "C29", "title": "Strict manifests are all-or-nothing", "statement": "In strict-manifest mode, if a file listed by a CA's manifest is missing or has a wrong hash, then when exploration ends neither the CA nor anything certified below it is valid, whatever the order in which files were explored.", "quantifier": "all object graphs, all positions of the failing file in the queue", "why_tests_cant": "depends on the exploration order and on what was already accepted", "anchors": ["validator/pki/pki.go:Explore", "validator/pki/pki.go:InvalidateManifestParent", "validator/pki/pki.go:InvalidateObject"]}
{"id": "C30", "title": "Manifests cannot name paths outside their repository", "statement": "A manifest is expanded only if none of its entries contains a parent-directory step, and every resulting path is the repository followed by the listed name.", "quantifier": "all manifests", "why_tests_cant": "all strings", "anchors": ["validator/pki/pki.go:ExtractPathManifest", "validator/pki/pki.go:ComputePath"]}
{"id": "C31", "title": "RRDP files stay in the cache directory", "statement": "Whatever URI an RRDP server publishes, the file and the directories written for it lie under the cache directory.", "quantifier": "all URIs", "why_tests_cant": "all strings, including every spelling of parent steps", "anchors": ["cmd/octorpki/octorpki.go:WriteRsyncFileOnDisk", "sync/lib/rsync.go:ExtractFilePathFromRsyncURL", "sync/lib/rsync.go:ExtractFoldersPathFromRsyncURL"]}
{"id": "C32", "title": "An RRDP server can only write its own domain", "statement": "A file received from the RRDP server bound to an rsync module is written only if its URI lies under that module, and no URI can stop the validator.", "quantifier": "all URIs and bound modules", "why_tests_cant": "all strings", "anchors": ["cmd/octorpki/octorpki.go:ReceiveRRDPFileCallback", "cmd/octorpki/octorpki.go:WriteRsyncFileOnDisk"]}
{"id": "C33", "title": "RRDP snapshot or delta decision", "statement": "The client downloads the snapshot exactly when it has no serial, the session changed, or a serial between its own and the announced one is missing from the notification; otherwise it applies exactly the deltas after its own serial up to the announced one, in increasing order, each once.", "quantifier": "all client states and notifications", "why_tests_cant": "all serials and delta sets", "anchors": ["sync/lib/rrdp.go:FetchRRDP"]}
{"id": "C34", "title": "RRDP session state is updated atomically", "statement": "If any step of an RRDP fetch fails the client's session id and serial are unchanged; if it succeeds the session is the announced one and the serial never goes back within a session.", "quantifier": "all client states, notifications and failure points", "why_tests_cant": "every failure point of every run", "anchors": ["sync/lib/rrdp.go:FetchRRDP"]}
{"id": "C35", "title": "RRDP mirror equals the server", "statement": "After a successful RRDP synchronisation with a consistent server every URI the server holds has exactly the server's content in the mirror, and every URI it withdrew is absent.", "quantifier": "all server histories, all client states consistent with an earlier serial", "why_tests_cant": "unbounded publish and withdraw histories", "anchors": ["sync/lib/rrdp.go:FetchRRDP", "cmd/octorpki/octorpki.go:ReceiveRRDPFileCallback"]}
{"id": "C36", "title": "RRDP crash and retry converge", "statement": "If a synchronisation is interrupted at any point (crash or failed delta) and later repeated against the same server, the resulting mirror is the one an uninterrupted run would give.", "quantifier": "all crash points in all runs", "why_tests_cant": "crash points are unbounded", "anchors": ["sync/lib/rrdp.go:FetchRRDP", "cmd/octorpki/octorpki.go:saveRRDPInfo", "cmd/octorpki/octorpki.go:LoadRRDPInfo"]}
{"id": "C37", "title": "RRDP content is bound to the notification", "statement": "A snapshot or delta file whose content does not match the hash listed in the notification is not applied.", "quantifier": "all notifications and file contents", "why_tests_cant": "all data values", "anchors": ["sync/lib/rrdp.go:FetchRRDP"]}
{"id": "C38", "title": "Route origin validation follows RFC 6811", "statement": "For every set of VRPs and every route, Validate answers Valid exactly when a covering VRP has the route's origin and a max length at least the route's length, Invalid exactly when VRPs cover the route but none matches, and NotFound exactly when none covers it.", "quantifier": "all VRP lists (any size, nesting, duplicates, insertion order) and all routes", "why_tests_cant": "all tables and routes; depends on the shape of a path-compressed tree", "anchors": ["ov/ov.go:Validate", "ov/ov.go:Filter", "vendor/github.com/kentik/patricia/int64_tree/tree_v4.go:add", "vendor/github.com/kentik/patricia/int64_tree/tree_v4.go:FindTagsWithFilterAppend"]}
{"id": "C39", "title": "Covering VRPs are reported exactly", "statement": "The VRPs returned with the verdict are exactly the VRPs covering the route, each as many times as it was supplied, ordered from the shortest to the longest prefix and by insertion within one prefix.", "quantifier": "all VRP lists and routes", "why_tests_cant": "all tree shapes", "anchors": ["ov/ov.go:Validate", "vendor/github.com/kentik/patricia/int64_tree/tree_v4.go:add"]}
{"id": "C40", "title": "Prefix tree insertion never panics", "statement": "No sequence of insertions reaches either of the panics in the prefix tree's insertion code, and no two distinct prefixes are ever stored at one node.", "quantifier": "all insertion sequences", "why_tests_cant": "all tree shapes", "anchors": ["vendor/github.com/kentik/patricia/int64_tree/tree_v4.go:add", "vendor/github.com/kentik/patricia/int64_tree/tree_v6_generated.go:add"]}
{"id": "C41", "title": "ROA entry max-length check", "statement": "A ROA entry passes the check exactly when prefix length <= max length <= 32 (IPv4) or 128 (IPv6), and a list passes exactly when each entry does.", "quantifier": "all entries", "why_tests_cant": "all combinations of length, family and max length", "anchors": ["validator/lib/roa.go:Validate", "validator/lib/roa.go:ValidateEntries"]}
{"id": "C42", "title": "ROA content round trip", "statement": "Encoding a list of ROA entries and converting the encoded content back yields the same prefixes with the same effective max lengths, grouped by family and in order within it.", "quantifier": "all lists of entries", "why_tests_cant": "unbounded lists", "anchors": ["validator/lib/roa.go:EncodeROAEntries", "validator/lib/roa.go:GroupEntries", "validator/lib/roa.go:ConvertROAEntries"]}
{"id": "C43", "title": "CMS digest binding", "statement": "A CMS object passes validation only if a message-digest attribute equals the SHA-256 of the content and the decrypted signature equals the SHA-256 of the signed attributes.", "quantifier": "all CMS objects, contents and keys", "why_tests_cant": "all data values", "anchors": ["validator/lib/cms.go:Validate", "validator/lib/cms.go:CheckSignaturesMatch"]}
{"id": "C44", "title": "Signature padding is strict", "statement": "The signature check accepts a decrypted block only if it is a complete PKCS#1 v1.5 block: 01, only FF bytes, 00, then a SHA-256 DigestInfo and nothing more.", "quantifier": "all decrypted blocks", "why_tests_cant": "all byte strings", "anchors": ["validator/lib/cms.go:RSAPublicDecrypt", "validator/lib/cms.go:DecryptSignatureRSA"]}
{"id": "C45", "title": "Signed attributes are hashed as their SET encoding", "statement": "The bytes hashed for the signature are exactly the DER SET of the signed attributes, whatever their total size.", "quantifier": "all attribute sets", "why_tests_cant": "sizes are unbounded; the failure needs more than 127 bytes", "anchors": ["validator/lib/cms.go:Validate", "validator/lib/cms.go:Sign"]}
{"id": "C46", "title": "A signer-less CMS never crashes", "statement": "Decoding and validating a CMS object with any number of signer infos returns a verdict or an error.", "quantifier": "all CMS objects", "why_tests_cant": "all structures", "anchors": ["validator/lib/cms.go:Validate", "validator/lib/cms.go:GetSigningTime", "validator/lib/roa.go:DecodeROA"]}
{"id": "C47", "title": "Chunked octet strings are reassembled", "statement": "Reassembling an octet string split into any sequence of chunks yields the original content.", "quantifier": "all contents and all ways to split them", "why_tests_cant": "unbounded", "anchors": ["validator/lib/cms.go:BadFormatGroup"]}
{"id": "C48", "title": "TAL text parsing", "statement": "For every TAL text made of optional comment lines, URI lines, an empty line and a base64 body wrapped anywhere, with LF or CRLF line ends, the decoder recovers exactly the URIs in order and the body.", "quantifier": "all URI lists, all wrappings, both line endings", "why_tests_cant": "unbounded text", "anchors": ["validator/lib/tal.go:DecodeTAL", "validator/lib/tal.go:DeleteLineEnd"]}
{"id": "C49", "title": "TAL round trip", "statement": "Decoding an encoded TAL returns the same URIs and key.", "quantifier": "all URI lists, keys and wrapping widths", "why_tests_cant": "all key lengths; failure depends on length mod 3", "anchors": ["validator/lib/tal.go:EncodeTALSize", "validator/lib/tal.go:DecodeTAL"]}
{"id": "C50", "title": "TAL key check is total and exact", "statement": "The check of a certificate against a TAL, however the TAL was made, answers true exactly for equal RSA keys and never crashes.", "quantifier": "all TALs, created or decoded, and all certificates", "why_tests_cant": "all dynamic types of the stored key", "anchors": ["validator/lib/tal.go:CheckCertificate", "validator/lib/tal.go:CreateTAL"]}
{"id": "C51", "title": "VRP de-duplication", "statement": "De-duplication keeps exactly one VRP per (prefix, max length, ASN), the first one, in order, and loses no triple.", "quantifier": "all VRP lists", "why_tests_cant": "unbounded lists", "anchors": ["cmd/octorpki/filter.go:FilterDuplicates", "vendor/github.com/cloudflare/gortr/prefixfile/prefixfile.go:String"]}
{"id": "C52", "title": "Prefix length filter", "statement": "The prefix-length filter keeps, in order, exactly the VRPs with an IPv4 prefix of at most 24 bits or an IPv6 prefix of at most 48 bits.", "quantifier": "all VRP lists", "why_tests_cant": "unbounded lists", "anchors": ["cmd/octorpki/filter.go:FilterInvalidPrefixLen"]}
{"id": "C53", "title": "Output list is complete and lossless", "statement": "The exported list contains one VRP for each authorised entry of each valid ROA that is in date, with its full max length, and the exported count equals the number of exported VRPs.", "quantifier": "all validation results", "why_tests_cant": "all ROA sets; narrowing conversion over all integers", "anchors": ["cmd/octorpki/octorpki.go:generateROAList"]}
{"id": "C54", "title": "Output digest binds the set of VRPs", "statement": "The digest that is signed does not depend on the order of the VRPs, and two lists with the same pre-image have the same multiset of (prefix, max length, ASN).", "quantifier": "all VRP lists", "why_tests_cant": "map iteration makes the order arbitrary", "anchors": ["vendor/github.com/cloudflare/gortr/prefixfile/prefixfile.go:GenerateDigest"]}
{"id": "C55", "title": "Signed output verifies", "statement": "A list signed by the server verifies under the matching public key, with and without the validity dates, for any order of its entries.", "quantifier": "all lists and key pairs", "why_tests_cant": "all data", "anchors": ["vendor/github.com/cloudflare/gortr/prefixfile/prefixfile.go:Sign", "vendor/github.com/cloudflare/gortr/prefixfile/prefixfile.go:CheckFile", "cmd/octorpki/octorpki.go:signROAList"]}
{"id": "C56", "title": "Stability means no new repository", "statement": "The validator declares itself stable only after an iteration that discovered no repository unknown to the previous ones, or at the iteration limit, and never on the first iteration.", "quantifier": "all sequences of discoveries", "why_tests_cant": "unbounded histories of iterations", "anchors": ["cmd/octorpki/octorpki.go:MainReduce", "cmd/octorpki/octorpki.go:validationLoop"]}
{"id": "C57", "title": "Iterations are bounded", "statement": "Between two refresh waits the validation loop runs at most the configured maximum number of iterations, whatever repositories appear.", "quantifier": "all discovery sequences", "why_tests_cant": "adversarial repositories can reveal new repositories for ever", "anchors": ["cmd/octorpki/octorpki.go:validationLoop"]}
{"id": "C58", "title": "One-off mode always writes its output", "statement": "When the one-off run ends normally it has written the output.", "quantifier": "all discovery sequences and settings", "why_tests_cant": "depends on the whole sequence of discoveries", "anchors": ["cmd/octorpki/octorpki.go:validationLoop"]}
{"id": "C59", "title": "Unstable data is not served", "statement": "With waiting enabled, the ROA endpoint returns data only if the last completed reduction was stable or the iteration limit was reached; before the first stable state every request gets 503; and once a stable state was published later requests are still served.", "quantifier": "all interleavings of requests and loop steps", "why_tests_cant": "all schedules", "anchors": ["cmd/octorpki/octorpki.go:ServeROAs", "cmd/octorpki/octorpki.go:validationLoop"]}
{"id": "C60", "title": "Entity tag identifies the data", "statement": "Two different exported lists never have the same entity tag.", "quantifier": "all pairs of lists", "why_tests_cant": "all data", "anchors": ["cmd/octorpki/octorpki.go:ServeROAs"]}
{"id": "C61", "title": "Fetch pools run every job exactly once", "statement": "With at least one worker, in every schedule the pool never deadlocks, and when its wait returns every submitted job has been run exactly once.", "quantifier": "all numbers of workers and jobs, all schedules", "why_tests_cant": "interleavings are unbounded", "anchors": ["cmd/octorpki/rrdp_fetcher.go", "cmd/octorpki/rsync_fetcher.go"]}
{"id": "C62", "title": "RRDP failover to rsync", "statement": "After the RRDP phase the set of rsync modules left to fetch does not depend on the order in which the RRDP fetches ended: it is the initial set without the modules fetched by RRDP and without those whose failure does not allow failover.", "quantifier": "all orders of completion and outcomes", "why_tests_cant": "all schedules", "anchors": ["cmd/octorpki/octorpki.go:fetchRRDP", "cmd/octorpki/octorpki.go:rrdpError", "cmd/octorpki/octorpki.go:rsyncFetchJobManager"]}
{"id": "C63", "title": "CT chains terminate", "statement": "Building the certificate path of any object terminates, even with cyclic issuer links, and lists the object first and then its successive issuers.", "quantifier": "all maps of key ids, including cyclic ones", "why_tests_cant": "graphs of any shape", "anchors": ["cmd/octorpki/octorpki.go:mainValidation", "cmd/octorpki/ct.go"]}
{"id": "C64", "title": "RRDP endpoint binding is permanent", "statement": "The rsync module bound to an RRDP URL is the one of the first certificate that used it and never changes while the process runs.", "quantifier": "all sequences of certificates", "why_tests_cant": "unbounded histories", "anchors": ["cmd/octorpki/octorpki.go:mainValidation"]}
{"id": "C65", "title": "rsync URL decomposition", "statement": "The module of an rsync URL is host and first path element, the folder and file paths are the URL without scheme and (for folders) without the last element; malformed URLs are rejected.", "quantifier": "all strings", "why_tests_cant": "all strings", "anchors": ["sync/lib/utils.go:ExtractRsyncDomainModule", "sync/lib/rsync.go:ExtractFoldersPathFromRsyncURL", "sync/lib/rsync.go:ExtractFilePathFromRsyncURL"]}
{"id": "C66", "title": "Object type is decided by extension", "statement": "An object's type is decided by its last four characters alone and only for names longer than four characters.", "quantifier": "all strings", "why_tests_cant": "all strings", "anchors": ["validator/pki/pki.go:DetermineType"]}
{"id": "C67", "title": "rsync URI of a TAL", "statement": "The rsync URI derived from a TAL is its first URI with the rsync scheme when there is one, and otherwise a fixed-form rsync URI that depends only on the TAL's last URI.", "quantifier": "all TALs with any number of URIs in any order", "why_tests_cant": "all URI lists", "anchors": ["validator/lib/tal.go:GetRsyncURI"]}
{"id": "C68", "title": "No validator operation hangs", "statement": "Every operation of the validator (adding a TAL, certificate, ROA, manifest, CRL or raw object, or invalidating an object) ends on every input, in every state the validator can reach.", "quantifier": "all histories of operations and all inputs of the next one", "why_tests_cant": "the loops follow parent and child links of any shape", "anchors": ["validator/pki/pki.go:ValidateCertificate", "validator/pki/pki.go:InvalidateObject", "validator/pki/pki.go:AddResource"]}
{"id": "C69", "title": "What a certificate points to", "statement": "The files discovered in a certificate are exactly one CRL per CRL distribution point and one manifest if it names one, each tied to the certificate's own repository.", "quantifier": "all certificates with any access descriptions in any order", "why_tests_cant": "lists of any length and order", "anchors": ["validator/pki/pki.go:ExtractPathCert"]}
{"id": "C70", "title": "Manifests outside their validity window", "statement": "In strict hash mode, when a file listed in a manifest is received while the clock is after the manifest's nextUpdate or before its thisUpdate, the CA certificate of that manifest stops being valid for good; inside the window the manifest's dates have no effect.", "quantifier": "all repositories, states of the exploration, clock readings and window bounds", "why_tests_cant": "any state of the exploration and any clock; permanence over all later histories", "anchors": ["validator/pki/pki.go:Explore", "validator/pki/pki.go:InvalidateManifestParent"]}
{"id": "C73", "title": "Objects made by this library can be read by it", "statement": "A ROA, manifest or XML message that is encoded, signed and written with this library is decoded by it to the same content, with the signing time, and counts as valid; signing succeeds for every RSA key of a usable size; the signed object itself validates; and the strict decoders accept it too.", "quantifier": "all contents, RSA key pairs, certificates, times and trailing bytes", "why_tests_cant": "contents and keys of any size, and the correctness of the RSA arithmetic for every key", "anchors": ["validator/lib/cms.go:EncodeCMS", "validator/lib/cms.go:Sign", "validator/lib/cms.go:Validate", "validator/lib/roa.go:EncodeROAEntries", "validator/lib/manifest.go:EncodeManifestContent", "validator/lib/xml.go:EncodeXMLData"]}
{"id": "C74", "title": "ROA content is read and written exactly", "statement": "Every DER-encoded RouteOriginAttestation (RFC 6482) is read as exactly its AS number and prefixes with their max lengths; entries are written as such an encoding and come back unchanged; AS numbers outside 0..4294967295 are refused.", "quantifier": "all route origin attestations, all lists of entries", "why_tests_cant": "any number of families and prefixes, any length of the encodings", "anchors": ["validator/lib/roa.go:DecodeROA", "validator/lib/roa.go:ROAToEncap", "validator/lib/roa.go:EncodeROAEntries", "validator/lib/roa.go:ConvertROAEntries"]}
{"id": "C75", "title": "What the strict check checks", "statement": "The strict check accepts an object exactly when the signature algorithm of its certificate carries NULL parameters and equals the signature algorithm of its first signer.", "quantifier": "all DER certificates and all signer lists", "why_tests_cant": "any certificate and any object", "anchors": ["validator/lib/cms.go:CheckSignaturesMatch"]}
{"id": "C76", "title": "Manifest content is read and written exactly", "statement": "Every DER-encoded Manifest (RFC 6486) without an explicit version is read as exactly its number, times, algorithm and files with their hashes, in order; a manifest is written as such an encoding whenever its names are ASCII, survives the BER conversion and comes back unchanged; an explicit version is refused.", "quantifier": "all manifests with any number of files and any trailing bytes", "why_tests_cant": "any number of files, any name and hash lengths", "anchors": ["validator/lib/manifest.go:DecodeManifest", "validator/lib/manifest.go:EncodeManifestContent"]}
{"id": "C77", "title": "Published prefixes are read back", "statement": "The text written for any IPv4 prefix, or IPv6 prefix that is not IPv4-mapped, in network form is read back as the same prefix, and different prefixes have different texts; host bits are cleared on reading; whatever text is accepted, what is read is a prefix in network form.", "quantifier": "all prefixes and all texts", "why_tests_cant": "2^128 addresses, every position of the zero run in an IPv6 text", "anchors": ["cmd/octorpki/octorpki.go:generateROAList", "vendor/github.com/cloudflare/gortr/prefixfile/prefixfile.go:GetPrefix2"]}
{"id": "C71", "title": "rsync modules are stored apart and inside the cache", "statement": "Fetching an rsync module named by a certificate writes only into the directory cache/host/module; it never writes outside the cache directory nor into the directory of another module, and no module name ends the process.", "quantifier": "all URIs in certificates, all cache directories, all cache contents", "why_tests_cant": "adversarial URIs; all pairs of modules", "anchors": ["cmd/octorpki/octorpki.go:fetchRsync", "sync/lib/fetch.go:GetLocalPath", "sync/lib/rsync.go:RunRsync", "sync/lib/utils.go:ExtractRsyncDomainModule"]}
{"id": "C72", "title": "What is fetched is what is validated", "statement": "Data stored for a URI by a fetch is exactly what the validator reads for this URI, with its hash, also when the URI is put together from a manifest's repository and a listed name.", "quantifier": "all URIs, contents, cache directories and cache states", "why_tests_cant": "the two sides compute paths differently; must agree for every URI", "anchors": ["sync/lib/fetch.go:GetLocalPath", "sync/lib/fetch.go:FetchFile", "sync/lib/fetch.go:GetFileConv", "sync/lib/fetch.go:GetFile", "cmd/octorpki/octorpki.go:WriteRsyncFileOnDisk"]}
{"id": "C79", "title": "Trust anchor certificates are stored where they are looked for", "statement": "When the certificate of a trust anchor locator has been downloaded over HTTP, the answer of the first usable URI is stored at the place where the validator looks for the certificate and no other file changes; when no HTTP URI works the certificate is left to rsync if there is an rsync URI and failover is on, and is then usable.", "quantifier": "all TALs, all server behaviours, all cache states and later histories", "why_tests_cant": "unbounded lists of URIs and histories", "anchors": ["cmd/octorpki/octorpki.go:fetchTAL", "cmd/octorpki/octorpki.go:fetchRsync", "validator/lib/tal.go:GetRsyncURI"]}
{"id": "C80", "title": "Missing files are reported", "statement": "A file is found exactly if its local copy can be read and converted; a file that is missing although its repository has been synchronised is reported as an error, and passed over silently only if it has not.", "quantifier": "all cache states, sets of synchronised repositories and files", "why_tests_cant": "all states", "anchors": ["sync/lib/fetch.go:GetFileConv", "sync/lib/fetch.go:GetFile"]}
{"id": "C81", "title": "Exploring without manifests sees all files", "statement": "When manifests are not used, every file in the local copy of a repository is handed to the validator exactly once.", "quantifier": "all directories and repositories", "why_tests_cant": "all directory contents", "anchors": ["sync/lib/fetch.go:GetRepository", "sync/lib/fetch.go:LocalFetch"]}
{"id": "C82", "title": "Chosen validation time is independent of the wall clock", "statement": "When a time of validation is chosen (the -valid.time option, Validator.Time), the result of an exploration depends only on the files and the chosen time: running it on another day gives the same result.", "quantifier": "all repositories, chosen times, wall clocks and configurations", "why_tests_cant": "The result must be the same for every pair of days and every repository; a test runs on one day.", "anchors": ["validator/pki/pki.go:Explore", "validator/pki/pki.go:Validator", "cmd/localrpki/localrpki.go:ValidTime"]}
{"id": "C78", "title": "Every published VRP is backed, and every valid ROA is published", "statement": "From TAL files to the published list: each line of the list is an entry of a signed ROA whose certificate chains by signatures to a certificate with the key of the named TAL, whose prefix lies within the resources of every certificate of the chain, and which a signed manifest lists with its hash; and a reader of the list finds exactly the authorisations of the valid ROAs of all TALs.", "quantifier": "all sets of TALs, repositories, flags in manifest mode, orders of map iteration and clocks", "why_tests_cant": "The claim joins every component and must hold for every repository content an adversary can publish.", "anchors": ["cmd/octorpki/octorpki.go:mainValidation", "cmd/octorpki/octorpki.go:generateROAList", "validator/pki/pki.go:Explore", "validator/pki/pki.go:AddResource"]}
{"id": "C83", "title": "Trust anchor certificates are downloaded when needed and renewed", "statement": "After each round the certificate of a TAL is planned for download exactly when the cache holds no usable certificate for it; a planned download stores the answer of the first HTTP URI that answers where the validator reads it in the same round; and a certificate that has expired or has been replaced upstream is downloaded again.", "quantifier": "all TALs, caches, HTTP answers, clocks and numbers of rounds, in manifest mode", "why_tests_cant": "The decision depends on the history of the cache over any number of rounds and on marks that the whole exploration could disturb.", "anchors": ["cmd/octorpki/octorpki.go:mainValidation", "cmd/octorpki/octorpki.go:mainTAL", "cmd/octorpki/octorpki.go:validationLoop", "validator/pki/pki.go:AddResource"]}
{"id": "C84", "title": "resources.json shows exactly the valid objects, truthfully", "statement": "Every entry of the published resource file is a certificate, ROA or manifest that the validation accepted: it is in a file fetched under the shown path, it chains to the named TAL, the manifest of its issuer lists it with the shown hash, and its key ids, serial, validity period and resources are those of the certificate. Every accepted certificate, ROA and manifest has an entry. The ROAs shown and the lines of the published list are the same.", "quantifier": "all sets of TALs, repositories, clocks, orders of map iteration, and flags in manifest mode", "why_tests_cant": "The file is written from marks left by the whole exploration of arbitrary repositories; a test sees a few well-formed repositories only.", "anchors": ["cmd/octorpki/octorpki.go:generateROAList", "cmd/octorpki/octorpki.go:mainValidation", "api/schemas/schemas.go:OutputRes"]}
{"id": "C85", "title": "IP address extensions are read and written as RFC 3779 says", "statement": "The DER encoding of an IP address block is read as exactly the prefixes, ranges and inherit marks it holds, in order and with the same addresses; octets that are accepted are such an encoding; and what is written for a list of resources is DER and is read back as the same resources.", "quantifier": "all blocks with any number of families, prefixes and ranges; all octet strings given to the decoder; all resource lists given to the encoder", "why_tests_cant": "Addresses are packed into bit strings of any length with implied bits; a widened or dropped entry for some length or some unexpected element gives an authority other addresses than it holds.", "anchors": ["validator/lib/cert.go:DecodeIPAddressBlock", "validator/lib/cert.go:EncodeIPAddressBlock", "validator/lib/cert.go:EncodeIPAddressBlockVersion"]}
{"id": "C86", "title": "AS extensions are read and written as RFC 3779 says", "statement": "The DER encoding of AS identifiers is read as exactly the AS numbers, ranges and inherit marks it holds, AS numbers and routing domain identifiers apart; octets that are accepted are such an encoding; what is written is DER for the given lists and is read back as them.", "quantifier": "all AS identifier extensions, all octet strings given to the decoder, all lists given to the encoder", "why_tests_cant": "The two fields are optional and the choices nest; any octets may come from a repository.", "anchors": ["validator/lib/cert.go:DecodeASN", "validator/lib/cert.go:DecodeASIdentifier", "validator/lib/cert.go:EncodeASN", "validator/lib/cert.go:EncodeASNSeq"]}
{"id": "C87", "title": "Access, key identifier and policy extensions are read and written faithfully", "statement": "Access descriptions are read and written with their methods and URIs in order; the extension for the issuer's certificate and for the signed object carry the right identifiers and the given URI; key identifiers are the octets of their field; the policy extension is a DER certificatePolicies with the RPKI policy and the given CPS address.", "quantifier": "all lists of access descriptions, URIs, keys and policy strings, all octet strings given to the decoders", "why_tests_cant": "Lengths and contents are arbitrary; the octets read come from repositories.", "anchors": ["validator/lib/cert.go:DecodeSubjectInformationAccess", "validator/lib/cert.go:EncodeSIA", "validator/lib/cert.go:EncodeInfoAccess", "validator/lib/cert.go:EncodePolicyInformation", "validator/lib/cert.go:DecodeKeyAuthority", "validator/lib/cert.go:DecodeKeyIdentifier"]}
{"id": "C88", "title": "The resources of a decoded certificate are those of its extensions", "statement": "Decoding a certificate gives the resources and access points its extensions hold, whatever their order and whatever other extensions are present, and none when there is no such extension; a certificate with a critical extension that is not understood is refused; and when the check of a certificate against its issuer leaves nothing invalid, every address and AS number written in the one lies within a prefix or range written in the other.", "quantifier": "all X.509 certificates as lists of extensions, in any order; all pairs of certificate and issuer", "why_tests_cant": "The claim ranges over all lists and orders of extensions, known and unknown, and all octets in them.", "anchors": ["validator/lib/cert.go:DecodeCertificate", "validator/lib/cert.go:GetRRDPGeneralName", "validator/lib/cert.go:GetRsyncGeneralName", "validator/lib/cert.go:HasRRDP", "validator/lib/cert.go:ValidateIPCertificateList", "validator/lib/cert.go:ValidateASNCertificateList"]}
{"id": "C89", "title": "Kept RRDP position was really reached", "statement": "Whatever rounds, concurrent fetches, crashes, restarts and failed or cut-short saves of the state file happened before, an RRDP fetch starts either from nothing (and takes the snapshot) or from a session and serial that an earlier successful fetch of the same endpoint reached; a complete save makes the next round or process continue where this one ended.", "quantifier": "all histories of loads, fetch starts, fetch ends, saves (complete, not done, cut at any octet) and kills, with any number of overlapping fetches", "why_tests_cant": "it is an invariant over unbounded histories with crashes at any point and any interleaving of fetches", "anchors": ["cmd/octorpki/octorpki.go:LoadRRDPInfo", "cmd/octorpki/octorpki.go:saveRRDPInfo", "cmd/octorpki/octorpki.go:getRRDPInfo", "cmd/octorpki/octorpki.go:newRRDPSystem", "cmd/octorpki/octorpki.go:fetchRRDP", "cmd/octorpki/octorpki.go:doRRDP"]}
{"id": "C90", "title": "RRDP heals after any history", "statement": "After any history of successful, failed and killed RRDP runs against a server that goes on publishing (new serials, new sessions), with positions saved, not saved or lost, the next run that succeeds leaves every URI of the server with exactly the server's bytes, at the announced session and serial.", "quantifier": "all servers, all histories of runs and failures of any length, all caches at the start, all operating-system failures", "why_tests_cant": "it is a statement about unbounded histories of partial failures; each needs the effect of all earlier ones on the cache", "anchors": ["sync/lib/rrdp.go:FetchRRDP", "cmd/octorpki/octorpki.go:ReceiveRRDPFileCallback", "cmd/octorpki/octorpki.go:fetchRRDP", "cmd/octorpki/octorpki.go:doRRDP"]}
{"id": "C91", "title": "A created revocation list is read back and revokes", "statement": "Whatever CreateCRL writes is read by the validator with the same contents (serial numbers, dates to the second, entry extensions, issuer, number, key identifier), its signature check covers exactly the octets that were signed, the validator files it under the key identifier of its issuer, accepts it if the issuer is valid, and then no certificate of that issuer with a listed serial becomes valid. It has the DER form of RFC 5280 and RFC 6487. Creating it fails only when the key cannot sign, the subject cannot be written, the number or a serial is missing, or a year is negative or has more than four digits.", "quantifier": "all keys, issuers, dates, numbers, lists of revoked certificates of any length with any extensions, and all histories of the validator after it", "why_tests_cant": "it is a round trip over unbounded lists, numbers and lengths (the header grows at 128 octets), followed by arbitrary histories", "anchors": ["validator/lib/crl.go:CreateCRL", "validator/pki/pki.go:AddResource", "validator/pki/pki.go:AddCRL"]}
{"id": "C92", "title": "Revocation lists are read as they are written", "statement": "Decoding any octets as a revocation list ends with a list or an error and never panics. A list in the DER form of RFC 5280 is read as its contents, and with the two extensions of RFC 6487 the validator takes from it exactly the key identifier of the issuer and the serial numbers of the entries.", "quantifier": "all octet strings; all revocation lists below 2^31 octets", "why_tests_cant": "inputs are attacker controlled octet strings of any length", "anchors": ["validator/pki/pki.go:AddResource", "validator/pki/pki.go:AddCRL"]}
{"id": "C93", "title": "The info page lists the repositories of the valid certificates", "statement": "After a round, the info page lists under the trust anchors exactly the rsync modules that valid certificates of the round name (leaving out certificates whose rsync URL is unusable or whose RRDP URL belongs to another host), each module once, under the first trust anchor that names it. The RRDP URL beside a module was named with that module by a valid certificate of the round, and it is the URL of the last such certificate, the one that will be fetched. Trust anchors appear in order, under their configured names when there are as many names as trust anchors. Building and serving the page never panics.", "quantifier": "all numbers of trust anchors, all lists of certificates in any order, all bindings left by earlier rounds, all growth policies of slices", "why_tests_cant": "whether a pointer into a growing slice still reaches the slice depends on the number and order of the modules (map order is random) and on the growth policy of the runtime", "anchors": ["cmd/octorpki/octorpki.go:mainValidation", "cmd/octorpki/octorpki.go:ServeInfo"]}
{"id": "C94", "title": "Dates of objects are read as the moments they name", "statement": "A date in a manifest, a revocation list or a signing time is accepted exactly if its text is a date of the Gregorian calendar with a time of the day and a zone: four digits of the year for GeneralizedTime, two for UTCTime, which then mean the years 1950 to 2049. The value is the moment that the text names, whatever the zone; moments compare as the dates do; and every date written in the form that RFC 5280 demands is read back as it was written. No octets make the reader panic. Only the forms of RFC 5280 are accepted.", "quantifier": "all octet strings, all dates of the years 0 to 9999, all zones", "why_tests_cant": "leap years, month lengths, the two-digit century rule, signs, fractions and zone arithmetic meet in unboundedly many texts; which of them survive the comparison with the formatted text is a statement about all of them", "anchors": ["validator/lib/manifest.go:DecodeManifest", "validator/pki/pki.go:AddCRL", "validator/lib/cms.go:GetSigningTime"]}
{"id": "C95", "title": "One CA's objects cannot crash the validation", "statement": "An exploration that starts from trust anchor locators ends without a crash, whatever objects the repositories hold. What is proved of the code: over octets that the decoders take without a crash and without nil prefixes, the only crash is a revocation list whose issuer's key no certificate seen so far has; in manifest mode the exploration crashes exactly if a round takes such a list. Such a list does crash it, and with it the validation of every other trust anchor of the run.", "quantifier": "all worlds of files (their octets, their changes between reads), both modes, with and without a log, all trust anchors, all rounds", "why_tests_cant": "a crash is one nil dereference anywhere in any sequence of objects that parties outside write; only an invariant over all tables and all rounds excludes the others", "anchors": ["validator/pki/pki.go:Explore", "validator/pki/pki.go:AddResource", "validator/pki/pki.go:AddCRL", "validator/pki/pki.go:ExploreAdd", "validator/pki/pki.go:InvalidateManifestParent", "cmd/octorpki/octorpki.go:MainValidation"]}
{"id": "C96", "title": "Exploring without manifests reads each repository once, and all of it", "statement": "When manifests are not used, the first manifest file of a repository makes the manager read the repository: exactly what the file seeker hands over is given to the validator, in order; a further manifest of the same repository changes nothing; and at any time each repository of which a manifest was taken has been read (unless a file has the very name of the repository). Each file is given to the validator once.", "quantifier": "all lives of a manager without manifests, all repositories, all answers of the file seeker, all rounds", "why_tests_cant": "what was read before depends on the whole history of rounds, and any certificate can point to any repository", "anchors": ["validator/pki/pki.go:GetNextRepository", "validator/pki/pki.go:Explore", "validator/pki/pki.go:ExploreAdd", "validator/pki/pki.go:ComputePath", "sync/lib/fetch.go:GetRepository"]}
{"id": "C97", "title": "Every rejection is reported once, to the right file, for a true reason, and no report is lost on the way", "statement": "With error reporting on, a round of the exploration blames only the file of the round: once if it cannot be fetched, has another hash than its manifest says, or is rejected, and the kind of error given is true of the file; it does not blame a file that is accepted. A certificate authority that loses its validity because of a file in its manifest is reported with that file, and only then. Reporting changes nothing of the validation, and the collector reads all reports in order, whatever the interleaving.", "quantifier": "all lives of a manager, all worlds, files and settings; for delivery all lists of reports and all interleavings of the manager and the collector", "why_tests_cant": "each of the ways to reject a file, in every state of the validator, must lead to exactly one report; the channel has room for 50 and can fill at any point", "anchors": ["validator/pki/pki.go:reportError", "validator/pki/pki.go:reportErrorFile", "validator/pki/pki.go:ExploreAdd", "validator/pki/pki.go:InvalidateManifestParent", "validator/pki/pki.go:InvalidateCRLParent", "validator/pki/pki.go:Close", "validator/pki/errors.go:NewCertificateErrorParent", "validator/pki/errors.go:NewResourceErrorWrap", "validator/pki/errors.go:NewFileError", "cmd/octorpki/octorpki.go:logCollector"]}
{"id": "C98", "title": "The list of files rsync fetched is exact", "statement": "For every rsync URL and every output of the rsync tool, the list returned names exactly the RPKI objects among the fetched files, each once, in order, by the URL it was fetched from, and as present; no rsync URL and no output crashes.", "quantifier": "all URLs (module, directory, contents of a directory), all lists of files and all other lines printed", "why_tests_cant": "the text is chosen by the remote server (names of files, message of the day), and the URL of a file is put together differently for each form of the source URL", "anchors": ["sync/lib/rsync.go:RunRsync", "sync/lib/rsync.go:FilterMatch", "cmd/octorpki/octorpki.go:fetchRsync"]}
{"id": "C99", "title": "Reducing a set of rsync URLs keeps them all, in one directory per module", "statement": "After any sequence of rsync URLs has been added, the reduced list has each directory once, none below another, one per module of a host that a URL is of, none that is only a host; every URL added lies at or below one of them, and no longer directory would contain all the URLs of its module. The order in which maps are iterated over does not matter.", "quantifier": "all sequences of texts added, all orders of iteration of Go's maps", "why_tests_cant": "the tree depends on the history of additions and its traversal on the random order of maps", "anchors": ["sync/lib/utils.go:AddInMap", "sync/lib/utils.go:ReduceMap", "sync/lib/utils.go:SubMap"]}
{"id": "C100", "title": "localrpki writes every entry of every valid ROA with the file it came from", "statement": "When the explorations of all TALs end, localrpki does not crash and writes, for each TAL and each ROA valid for it, taken once, one line per entry with its AS number, prefix and full max length. With manifests, each line is backed by the same evidence as a line of octorpki's list, its path is the one the ROA's file was fetched from, and the set of prefixes, AS numbers and max lengths is the one octorpki publishes without its filter.", "quantifier": "all lists of TALs, all repositories and their answers, all settings, all orders of iteration of maps", "why_tests_cant": "the path is looked up in a table filled during the exploration; a missing entry is a nil dereference that depends on the history", "anchors": ["cmd/localrpki/localrpki.go:main", "validator/pki/pki.go:ExploreAdd", "validator/pki/pki.go:SimpleManager"]}
{"id": "C101", "title": "The whole program: what valid certificates name is fetched, nothing else is, and stable means fetched", "statement": "Over any run of octorpki, for any cache at the start: every module named by the repository of a certificate that one round holds valid is asked of rsync in the next round unless RRDP settles it; every rsync URL and every RRDP URL asked for was named by a certificate valid in an earlier round or is the URI of a TAL read earlier; all RRDP fetches at one URL are for one host; when the loop is declared stable before its limit, every module named by a valid certificate of the last round was tried in that round or before; and each line that a client is served belongs to a ROA valid in the cache as fetched in one round.", "quantifier": "all numbers of rounds, all contents of cache and positions file at the start, all servers, clocks, map orders and rsync results, per round", "why_tests_cant": "it relates fetches of one round to validations of all rounds before through four maps that several phases change; a lost entry shows only in particular histories", "anchors": ["cmd/octorpki/octorpki.go:validationLoop", "cmd/octorpki/octorpki.go:mainValidation", "cmd/octorpki/octorpki.go:doRRDP", "cmd/octorpki/octorpki.go:mainRRDP", "cmd/octorpki/octorpki.go:mainTAL", "cmd/octorpki/octorpki.go:mainRsync", "cmd/octorpki/octorpki.go:MainReduce"]}
{"id": "C102", "title": "Between fetching and validating, a round of octorpki cannot crash", "statement": "After any number of rounds, the rsync phase of the next round ends whatever rsync does. If the RRDP fetches, the downloads of certificates of trust anchors and the explorations of the round end (and, with the filter on, the VRPs found are well-formed), then the whole round ends with a list: collecting trust anchors and repositories, type assertions, map lookups and reading files again for the list do not crash. (An RRDP server that publishes a URI of another scheme, and a positions file with the text null, do end the program.)", "quantifier": "all histories of rounds, all contents of cache and positions file at the start, all servers, clocks, map orders and rsync results", "why_tests_cant": "a crash needs an entry in one map that another map, filled in another phase or round, does not have; tests see a few histories", "anchors": ["cmd/octorpki/octorpki.go:mainRsync", "cmd/octorpki/octorpki.go:fetchRsync", "cmd/octorpki/octorpki.go:mainValidation", "cmd/octorpki/octorpki.go:generateROAList", "cmd/octorpki/octorpki.go:doRRDP"]}
{"id": "C103", "title": "octorpki has no data races between validating, fetching and serving", "statement": "In every run of octorpki in server mode, two goroutines never access the same field at the same time without synchronisation, one of them writing: not the tables of repositories and jobs the fetch workers share, not the positions of RRDP, not what is served (list of VRPs, resources, authorities) and not what is inside it. (It fails for the time of the last validation with every request for the list of VRPs, and with requests for the info page for the list itself, the counts and the duration.)", "quantifier": "all numbers of rounds, workers, jobs and requests, all outcomes of downloads, all schedules; happens-before as in the Go memory model", "why_tests_cant": "the race detector sees only the schedules that happen in a test; a race needs one schedule in which no lock orders two accesses", "anchors": ["cmd/octorpki/octorpki.go:ServeROAs", "cmd/octorpki/octorpki.go:ServeInfo", "cmd/octorpki/octorpki.go:ServeResources", "cmd/octorpki/octorpki.go:mainValidation", "cmd/octorpki/octorpki.go:generateROAList", "cmd/octorpki/octorpki.go:fetchRRDP", "cmd/octorpki/rrdp_fetcher.go", "cmd/octorpki/rsync_fetcher.go"]}
{"id": "C104", "title": "Nobody holds up octorpki by being slow", "statement": "Whatever has happened so far, the validation loop can finish its rounds although no HTTP client ever reads its answer, and each request that came in can be answered without waiting for the network, the disk, the validation, the workers or another client. (It fails for the page of resources: one client that does not read its answer stops the validation for ever.)", "quantifier": "all reachable states of all runs: any numbers of rounds, workers, jobs and requests, any schedule", "why_tests_cant": "a deadlock or a stall needs one bad interleaving of many goroutines and locks; tests use fast clients", "anchors": ["cmd/octorpki/octorpki.go:ServeResources", "cmd/octorpki/octorpki.go:ServeROAs", "cmd/octorpki/octorpki.go:ServeInfo", "cmd/octorpki/octorpki.go:validationLoop", "cmd/octorpki/octorpki.go:fetchRRDP"]}
{"id": "C105", "title": "Every chain of certificates is submitted to the Certificate Transparency log, once", "statement": "After a round whose result is final, the programs that submit to a Certificate Transparency log (octorpki, ctrpki) submit for each valid object its chain: the certificate of the object and those above it, in order; for a ROA or a manifest this is the certificate inside it, the one it was validated with. Whatever the timing of the threads, no chain is lost and none is submitted twice, and the call ends. Where this fails is stated: octorpki never submits in a one-off run that waits for the stable state and stops for ever with zero threads; ctrpki may lose the last chains (up to one per thread), submits the chains of earlier TALs again, and crashes on a file it can no longer read.", "quantifier": "every set of chains, every number of threads, every order of events between main goroutine and threads, every content of the files, every history of rounds", "why_tests_cant": "Which chains are lost depends on which case select takes and on how far each thread is; a test sees a few schedules and usually a single thread count.", "anchors": ["cmd/octorpki/ct.go: SendCertificateTransparency, BatchCertificateTransparency, SingleSendCertificateTransparency", "cmd/octorpki/octorpki.go: main (submission)", "cmd/ctrpki/ctrpki.go: main, BatchCertificateTransparency"]}
{"id": "C106", "title": "RRDP documents are read completely and exactly, or rejected", "statement": "Of a snapshot or delta document the client reads exactly the objects published and those withdrawn, in order, each with its URI and the text directly in its element; comments, white space, other elements and anything around the element make no difference. Of a notification it reads the session, the serial, the place and hash of the snapshot, and those of all deltas in order. A document that is cut off after its element has begun is rejected. The texts taken for a serial are exactly the decimal numbers of 64 bits with optional sign and white space, and the empty text for zero. Where this fails is stated: an answer without any RRDP element (empty body, web page, cut off early) is taken for a document without objects, so that the run succeeds, the announced serial is recorded and the changes are lost; session, serial and kind of a document are not compared with what was announced; the objects of the first of two elements in a document are read twice.", "quantifier": "every document as a tree of elements, texts and comments, every place to cut it off, every answer of the server, every state of the client", "why_tests_cant": "Documents have any shape and may be cut off at any point; tests read a few whole documents.", "anchors": ["sync/lib/rrdp.go: ParseRoot, ParseNode, FetchRRDP", "sync/lib/rrdp_struct.go: Notification, Snapshot, Delta, Cert, ElNode, RootNode"]}
{"id": "C107", "title": "Answers over the limit are neither processed nor replaced by rsync; every other failure is", "statement": "The document the RRDP client reads is the whole body of an answer with status 200 of at most 10^9 bytes; anything else is an error. With failover on, the rsync module of a run is left out of the rsync phase in exactly two cases: the run succeeded, or one of its answers was over the limit. In the second case that answer was the last one asked for, nothing of it reached the parser or the disk, and session and serial are kept. With failover off a failed run never leads to rsync. The message of a failed download names the notification and the rsync module.", "quantifier": "every server (URL refused, no answer, any status, any body, any point where it breaks off), every state of the client, every number of deltas, every file system", "why_tests_cant": "The decision compares the text of an error that may come from any of a dozen places; a test would need bodies of a gigabyte at each of them.", "anchors": ["sync/lib/rrdp.go: GetXML, ResponseLimit, FetchRRDP", "sync/lib/errors.go: RRDPError, NewRRDPErrorFetch", "cmd/octorpki/octorpki.go: fetchRRDP, rrdpError, ReceiveRRDPFileCallback"]}
{"id": "C108", "title": "PrivateEncrypt makes correct RSA signatures for keys with any number of primes", "statement": "For every valid RSA key, with or without the precomputed values and with any number of primes, PrivateEncrypt returns the PKCS#1 block of the data raised to the private exponent modulo N, without leading zeros; the public key gives the data back, and filled up with zeros it is the signature of the standard library. Exactly the data that leave less than 11 bytes in the modulus are refused and the function never crashes. (Violated in one point: a signature whose value begins with a zero byte is shorter than the modulus, which strict readers refuse.)", "quantifier": "every key with at least two distinct odd primes and inverse exponents, every correct set of precomputed values, every byte string", "why_tests_cant": "The Chinese remainder computation runs over a loop of primes; a wrong sign or factor shows only for some residues, and keys with more than two primes are not tested at all.", "anchors": ["validator/lib/cms.go: PrivateEncrypt, RSAPublicDecrypt"]}
{"id": "C109", "title": "Reports about rejected objects are true and identify the object", "statement": "When a certificate is rejected, the error says the truth: the kind is the reason of the decision, a conflict names the certificate that has the key, a resource error lists exactly the resources that the issuer does not hold. The line in the log identifies the kind of error, the keys of the certificate and of its issuer and every resource listed; a wrong hash shows both hashes. The tags of the report identify the file, its type, its repository, the kind, the trust anchor and the certificate, and no error of a ROA, manifest or certificate crashes the log. (Violated: the line in the log never names the file; the message about an ended certificate shows the beginning of its validity; the text of a certificate shows AS numbers in place of routing domain identifiers.)", "quantifier": "every state of the Validator, every certificate, every error with and without file information, every list of files", "why_tests_cant": "Reports are only read when something is wrong, over all kinds of failures and states; that two different failures never give the same line is a statement about pairs of errors.", "anchors": ["validator/pki/errors.go: CertificateError, FileError, ResourceError, NewCertificateError..., NewResourceErrorWrap, NewResourceErrorHash, SetSentryScope", "validator/lib/cert.go: String, ValidateTime", "validator/pki/pki.go: ValidateCertificate, AddCert, AddROA, AddManifest", "cmd/octorpki/octorpki.go: logCollector"]}
{"id": "C110", "title": "Every page is served at its path, and only named origins may read it", "statement": "The HTTP server starts if and only if no path of its options is empty and no two are the same. Then a request gets the document of the longest registered path that fits; a path that is not in simple form is redirected, at most once; everything else is 404. A page of another origin can read an answer if and only if its origin is named in the list and the method is GET, POST or OPTIONS, and with credentials only if they are enabled and the list has no star alone; a preflight never gets a document. (Violated: an empty output path crashes the server at its start; a ROA path such as ./output.json is never served; info, health and metrics paths without a leading slash are never served; a space in the list of origins disables the origin.)", "quantifier": "every set of options, every method, host, path and origin", "why_tests_cant": "All combinations of options and requests count; a redirection loop or an origin that matches by accident shows only for special strings.", "anchors": ["cmd/octorpki/octorpki.go: Serve", "vendor/github.com/rs/cors/cors.go: New, Handler, handlePreflight, handleActualRequest, isOriginAllowed"]}
{"id": "C111", "title": "The published list is a JSON text that determines the list, and half a file never reads as a list", "statement": "Whatever the list holds, the answer of the HTTP server and the output file are JSON texts (RFC 8259) of it, without control characters, angle brackets and ampersands. With strings in UTF-8, as every list has that octorpki makes from trust anchors with names in UTF-8, the text determines every field of the list, and every reader that follows the standard reads the same list. No beginning of the text is JSON: an answer or a file that was cut off is refused. A process that dies while it writes the output file leaves the old file, the new list or a file that is refused. (Violated: the file is not replaced at once, so a crash can leave neither list; names that are not UTF-8 are replaced, so that two trust anchors can become one.)", "quantifier": "every list, every string of octets in it, every length at which the text is cut, every point of a crash", "why_tests_cant": "The strings are arbitrary octets and the text may be cut anywhere; that no cut reads as a list is a statement about all prefixes of all documents.", "anchors": ["cmd/octorpki/octorpki.go: ServeROAs, output, getROAList, newROAList", "vendor/github.com/cloudflare/gortr/prefixfile/prefixfile.go: ROAList, ROAJson, MetaData", "encoding/json: Marshal, Encoder.Encode, Unmarshal"]}
{"id": "C112", "title": "A locator carries exactly one RSA key, and a key identifier stands for one key", "statement": "HashPublicKey gives for an RSA key, by value or by pointer, the SHA-1 digest of its DER form (RFC 5280 4.2.1.2, method 1), and an error for any other key; two keys with the same identifier are equal or a SHA-1 collision. A trust anchor locator that is written carries the key's subject public key info (RFC 5280) and nothing else; one that is read yields the key written in it and no other, and the certificate it points to passes the key check exactly if it has that key. No text makes the decoder crash. (Violated: the decoder takes infos that are not DER, with octets behind or between, and keys that cannot verify anything, such as modulus zero.)", "quantifier": "every RSA key, every key type, every list of URIs, every text given as a locator", "why_tests_cant": "Keys and texts are unbounded; that no other octets read as a key, and that no two keys share a form, are statements about all octet strings.", "anchors": ["validator/lib/tal.go: HashPublicKey, HashRSAPublicKey, BundleRSAPublicKey, EncodeTAL, EncodeTALSize, DecodeTAL, RPKITAL.GetURI", "encoding/asn1: Marshal, Unmarshal"]}
{"id": "C113", "title": "RRDP documents are read octet by octet as XML says, and a download that breaks off is noticed", "statement": "ParseNode and ParseRoot, given the octets of a well-formed document, read exactly the pieces written in it: elements with their attributes, text with references resolved, CDATA sections, comments and instructions; so the objects of a snapshot or delta and the references of a notification are those that the octets say. A document cut off at any octet after its start tag is rejected. What is read from any octets at all is never larger than the document, contains only characters that XML allows, and no entity that the document defines itself is replaced. (Violated: names are compared without their prefix, so an attribute x:serial replaces the serial.)", "quantifier": "every octet string, every well-formed document, every place where it is cut off, every table of names beyond ASCII", "why_tests_cant": "Documents are unbounded trees with many ways to write one text; that none is misread, and that no place to cut leaves an acceptable document, are statements about all octet strings.", "anchors": ["sync/lib/rrdp.go: ParseNode, ParseRoot", "sync/lib/rrdp_struct.go", "encoding/xml: Decoder.Token, Decoder.rawToken, Decoder.text"]}
{"id": "C114", "title": "Publication and setup messages are accepted exactly if their octets say one, and give exactly its fields and elements", "statement": "DecodeXML, DecodeXMLFull, DecodeXMLCRFull and DecodeXMLPRFull accept exactly the octet strings whose first element has the name and the name space of the message and a version that is a number; they give the version, the attributes and the octets between the tags as they stand there. DecodeInner gives exactly the elements written inside, in order, with name, hash, error_code, tag, uri and inner octets, and an error exactly if the inside is no sequence of elements; elements given with an error stand at the beginning of the text. No octets crash a decoder or keep it running; a message that breaks off is refused; no text is a message of two kinds. (Violated: what stands behind the message is ignored; elements inside lose the name space of the message.)", "quantifier": "every octet string, every message, every place where it is cut off, every table of names beyond ASCII", "why_tests_cant": "Messages are unbounded and one message has many spellings (prefixes, references, comments, order of attributes); exactness is a statement about all octet strings.", "anchors": ["ca/xml.go: DecodeXML, DecodeXMLFull, DecodeXMLCRFull, DecodeXMLPRFull, DecodeInner, NewXMLList, Content", "encoding/xml: Decoder.Decode"]}
{"id": "C115", "title": "Certificates are accepted exactly if their octets say one, and everything used of them is signed", "statement": "DecodeCertificate accepts exactly the octet strings that are a certificate (DER elements with version, serial number, algorithm, names, dates, key, extensions each at most once, signature) whose resource and access extensions can be read, and gives the fields that stand there. Every certificate in the form of RFC 6487 is accepted and read as what it says. Two files with the same signed octets give the same certificate to the validator. No octets crash the decoder or keep it running. A certificate passes as a signer exactly if the signature is good, it is an authority where it can say so, and its key usage allows signing certificates. (Violated: octets behind the signature are ignored; version 1 certificates pass as authorities; an empty key usage allows everything; path lengths and unknown critical extensions are ignored.)", "quantifier": "every octet string, every list of extensions in every order, every certificate of the profile, every pair of certificates", "why_tests_cant": "Certificates are unbounded octet strings under attackers' control; that nothing outside the signed octets matters and that nothing crashes are statements about all of them.", "anchors": ["validator/lib/cert.go: DecodeCertificate, RPKICertificate.Validate", "crypto/x509: ParseCertificate, CheckSignatureFrom"]}
{"id": "C116", "title": "Behind every published line there are delivered octets, signed step by step up to the TAL", "statement": "Each line of the published list goes back to octets that were delivered: a file that is a signed ROA whose content says the AS number, prefix and max length; a signature that binds this content to the key of the certificate inside; certificates, each within its validity period, each with a signature over its own octets that is good with the key of the next, which is an authority allowed to sign certificates and has the key id that the signed one names, up to the certificate which the TAL says where to find and which has the key in the TAL; and a signed manifest that lists the file with a hash. The validator has of each certificate, ROA, manifest and revocation list exactly what their octets say. (Violated: a key that may not sign revocation lists passes as their signer.)", "quantifier": "every set of delivered files (arbitrary octets), every TAL, every order of exploration, every digest function with 32 octets and every signature check", "why_tests_cant": "It ties the whole path from arbitrary octets under attackers' control to the output; tests exercise single formats or fixed repositories.", "anchors": ["cmd/octorpki/octorpki.go: MainValidation", "validator/pki/pki.go: Validator.AddResource", "validator/lib/cert.go: DecodeCertificate, Validate", "validator/lib/roa.go: DecodeROA", "validator/lib/manifest.go: DecodeManifest"]}
{"id": "C117", "title": "Exactly which files can end the process", "statement": "Reading the octets of any file as a TAL, certificate or revocation list always comes back. Reading them as a ROA ends the process exactly if they are a ROA without signer and the strict check is off. Reading them as a manifest ends the process exactly if the content of the signed object breaks off in the middle of an identifier, a length or a part, or if they are a manifest with a certificate and without signer and the strict check is off. If no delivered file is of these kinds, and none has a certificate with an address that does not fit its family, then an exploration ends the process exactly when it comes to a revocation list that names an issuer's key which the validator does not know. (The hope that no file can end the process is false: witnesses.)", "quantifier": "every octet string as the contents of a file, with and without the strict check, every repository and TAL, every digest and signature check, every library code for the rest that comes back", "why_tests_cant": "It is an exact description of a set of inputs under attackers' control, in both directions, over all octet strings and all repositories.", "anchors": ["validator/pki/pki.go: Validator.AddResource, SimpleManager.Explore", "validator/lib/roa.go: DecodeROA", "validator/lib/manifest.go: DecodeManifest", "validator/lib/ber.go: BER2DER", "validator/lib/cms.go: CMS.Validate, GetSigningTime"]}
{"id": "C118", "title": "No published line rests on a revoked certificate", "statement": "For each line of the published list there is a chain of certificates from the ROA's to the certificate of the TAL, all of them valid at the end, each signed by the next, and a signed one has its serial number on the revocation list that is in force for its issuer at the end only if another certificate with the same issuer key and serial was stored after it; so, if the stored certificates have different pairs of issuer key and serial, no certificate below the TAL's is on the list in force. Each list in force was delivered as a file and carries a good signature of the valid certificate with the key id it names, and there is at most one for a key id. (That no line ever rests on a revoked certificate is false: witness.)", "quantifier": "every repository and TAL, every order and time of deliveries, every revocation list, every published line", "why_tests_cant": "Revocation has to hold whatever the order in which certificates, ROAs and lists arrive, through chains of any length, and for every repository an attacker can build.", "anchors": ["validator/pki/pki.go: Validator.AddCRL, ValidateCRL, InvalidateObject, AddCert", "cmd/octorpki/octorpki.go: mainValidation, generateROAList"]}
{"id": "C119", "title": "A ROA that is in order is listed, and stays listed", "statement": "If a chain of certificates, from one that was accepted and has no issuer in the validator down to the certificate of a ROA, is delivered issuer first, each in its validity window, signed by its issuer and with resources that the issuer holds itself, none of them withdrawn by an accepted revocation list or invalidated by name, and the ROA's signatures and maximum lengths are right, then after the whole history all the certificates are valid and the ROA is listed, whatever else was delivered before, in between or after, and at the end of a validation run its prefixes can be read in the published list, provided that none of the key ids was in use when the certificate with it came. (Without the proviso it is false: a certificate that nobody issued and that was refused blocks a ROA with the same key id; witness.)", "quantifier": "every history of operations on the validator, of any length, and chains of any length in it", "why_tests_cant": "That no other object can take a good ROA away must hold for every set of foreign objects and every order in which they arrive.", "anchors": ["validator/pki/pki.go: Validator.AddCert, AddROA, AddCRL, AddResource, InvalidateObject, ValidateCertificate"]}
{"id": "C120", "title": "What an exploration accepted it loses only for a reason", "statement": "If a certificate is valid, or a ROA listed, at any moment of an exploration with manifests, then at the end it is valid (or listed) still, or one of these is the case: the manifest of the CA with that key lists a file that was taken up and could not be had at some moment (in strict manifest mode), or that manifest was not current at some moment (in strict hash mode); an accepted revocation list of its issuer has its serial number; its issuer is known and is not valid. In the last case the same holds of the issuer, and so on: there is a certificate above, valid at that moment, that was lost for a reason of its own. Nothing else that a repository can contain takes it away.", "quantifier": "every exploration that ends, with any files, answers of the file seeker, clock readings and flags, every moment of it and every certificate and ROA", "why_tests_cant": "The loss of a good object depends on every other file of the repository and on the order in which they come; no set of repositories covers these.", "anchors": ["validator/pki/pki.go: SimpleManager.Explore, ExploreAdd, Validator.AddResource, InvalidateObject, AddCRL"]}
{"id": "C121", "title": "Files read over the API", "statement": "A validator that reads its files over the API gets, for each file, the resource that the server has under the file's path, in DER if it starts with a BER encoding, and an error if the server has none; for a repository it gets exactly the resources of the server's stream, in order, each with the type that its name says. It is told when the stream breaks off, and in strict hash mode it takes no file whose hash is not the one its manifest lists. (The last two are false: a broken stream looks like a complete one, and over the API no hash is ever compared; witness: a ROA under a manifest with another hash is listed. Which octets of the server end the process is stated exactly.)", "quantifier": "every client and server, every file and stream, and every exploration over them", "why_tests_cant": "The answers of a server are arbitrary; that strict hash mode has no effect is a statement about all explorations.", "anchors": ["sync/api/fetch.go: FetchFile, APIFetch.GetFile, APIFetch.GetRepository", "validator/pki/pki.go: SimpleManager.Explore"]}
{"id": "C122", "title": "Where the files come from does not matter", "statement": "In manifest mode, what a validation concludes depends on the source of its files only through their octets, and in strict hash mode also through the hashes that come with them: two sources that give the same octets for each file lead each exploration to the same valid objects, the same files and the same deliveries in the same order, and the validation to the same list of VRPs. Whether a source says that a file is not there or fails to read it makes no difference.", "quantifier": "every pair of sources with the same octets, every set of TALs, all flags with manifests, and every number of rounds", "why_tests_cant": "It compares two executions for every repository; a source that fails and one that has no file take different branches in each round.", "anchors": ["validator/pki/pki.go: SimpleManager.Explore, GetNextFile, ExploreAdd, InvalidateManifestParent, InvalidateCRLParent", "sync/lib/fetch.go: FileSeeker", "cmd/octorpki/octorpki.go: mainValidation, generateROAList"]}
