{
 "claims": [
  {
   "property": "C01",
   "status": "proved",
   "theorems": [
    "Verif.Props.C01_ber_to_der",
    "Verif.Props.C01_der_injective",
    "Verif.Props.C01_empty_indefinite_rejected",
    "Verif.Props.C01_empty_indefinite_swallows",
    "Verif.Props.C01_exact",
    "Verif.Props.C01_more_than_ber"
   ],
   "note": "Every BER encoding (definite, non-minimal, indefinite) of every value is transcoded to its DER encoding; DER is injective. C01_exact: exactly what is accepted, on arbitrary octets."
  },
  {
   "property": "C02",
   "status": "proved",
   "theorems": [
    "Verif.Props.C02_canonical_and_idempotent",
    "Verif.Props.C02_trailing_ignored"
   ],
   "note": "DER input is a fixed point; the output is always a fixed point; trailing bytes are ignored."
  },
  {
   "property": "C03",
   "status": "partial",
   "theorems": [
    "Verif.Props.C03_violated_tag",
    "Verif.Props.C03_violated_length_and_indefinite",
    "Verif.Props.C03_no_panic_when_padded_partial",
    "Verif.Props.C03_no_panic_on_encodings_partial",
    "Verif.Props.C03_exact",
    "Verif.Props.C03_otherwise"
   ],
   "note": "False as stated: inputs that end inside a tag, a length or an indefinite object crash. C03_exact says exactly which inputs crash; the partial theorems name large sets that do not."
  },
  {
   "property": "C04",
   "status": "partial",
   "theorems": [
    "Verif.Props.C04_violated_exponential",
    "Verif.Props.C04_violated_no_linear_bound",
    "Verif.Props.C04_terminates_partial",
    "Verif.Props.C04_linear_on_encodings_partial"
   ],
   "note": "False as stated: a family of inputs of linear size has exponentially large output. Proved: termination on every input, and the bound on all encodings."
  },
  {
   "property": "C05",
   "status": "proved",
   "theorems": [
    "Verif.Props.C05_range_sound",
    "Verif.Props.C05_validated_sound",
    "Verif.Props.C05_decoded_wf",
    "Verif.Props.C05_range_complete",
    "Verif.Props.C05_malformed_accepted",
    "Verif.Props.C05_cross_family"
   ],
   "note": "Soundness for all well-formed entries, converse for plain addresses; witnesses for malformed entries and for IPv4-mapped cross-family acceptance."
  },
  {
   "property": "C06",
   "status": "proved",
   "theorems": [
    "Verif.Props.C06_as_exact",
    "Verif.Props.C06_as_exact_no_inherit"
   ],
   "note": "Exact, with and without inherit."
  },
  {
   "property": "C07",
   "status": "proved",
   "theorems": [
    "Verif.Props.C07_ip_partition",
    "Verif.Props.C07_as_partition",
    "Verif.Props.C07_as_verdicts",
    "Verif.Props.C07_ip_verdicts",
    "Verif.Props.C07_inherit_valid",
    "Verif.Props.C07_ip_invalid"
   ],
   "note": "Partition, order and the meaning of each verdict, for IP and AS."
  },
  {
   "property": "C08",
   "status": "proved",
   "theorems": [
    "Verif.Props.C08_prefix_range_exact",
    "Verif.Props.C08_short_mask"
   ],
   "note": "Exact for all proper prefixes; short masks are an error."
  },
  {
   "property": "C09",
   "status": "proved",
   "theorems": [
    "Verif.Props.C09_prefix_round_trip",
    "Verif.Props.C09_bitstring_round_trip",
    "Verif.Props.C09_mapped_form_lost"
   ],
   "note": "Both directions; prefixes in mapped 16-byte form with a 4-byte mask are outside (witness)."
  },
  {
   "property": "C10",
   "status": "partial",
   "theorems": [
    "Verif.Props.C10_decode_min_max",
    "Verif.Props.C10_ipv6_round_trip_partial",
    "Verif.Props.C10_violated_ipv4",
    "Verif.Props.C10_violated_mapped"
   ],
   "note": "False for IPv4 (the encoder crashes on every 4-byte address) and for IPv6 ranges touching the IPv4-mapped block. Proved: decoding of both families, IPv6 round trip."
  },
  {
   "property": "C11",
   "status": "proved",
   "theorems": [
    "Verif.Props.C11_block_round_trip",
    "Verif.Props.C11_block_perm"
   ],
   "note": "For all encodable lists; inherit collapses its family."
  },
  {
   "property": "C12",
   "status": "partial",
   "theorems": [
    "Verif.Props.C12_round_trip_partial",
    "Verif.Props.C12_violated_lost",
    "Verif.Props.C12_violated_range"
   ],
   "note": "False when inherit follows another entry. Proved for lists without inherit and for inherit alone."
  },
  {
   "property": "C13",
   "status": "proved",
   "theorems": [
    "Verif.Props.C13_validity_window"
   ],
   "note": "Exact."
  },
  {
   "property": "C14",
   "status": "partial",
   "theorems": [
    "Verif.Props.C14_violated_child",
    "Verif.Props.C14_violated_parent",
    "Verif.Props.C14_no_crash_partial"
   ],
   "note": "False: an unknown address family decodes and then crashes the check, as child or as parent. Proved for known families."
  },
  {
   "property": "C15",
   "status": "proved",
   "theorems": [
    "Verif.Props.C15_chain_of_trust",
    "Verif.Props.C15_to_anchor",
    "Verif.Props.C15_issuer_valid"
   ],
   "note": "For all histories; trust anchors are the certificates offered with the trust flag. C15_to_anchor follows the chain certificate by certificate up to one that was itself offered as a trust anchor, not merely one with the same key id."
  },
  {
   "property": "C16",
   "status": "proved",
   "theorems": [
    "Verif.Props.C16_acceptance_justified",
    "Verif.Props.C16_complete"
   ],
   "note": "Both directions. Resources are checked one level above an inheriting issuer, see C17."
  },
  {
   "property": "C17",
   "status": "partial",
   "theorems": [
    "Verif.Props.C17_two_levels_partial",
    "Verif.Props.C17_no_overclaim_partial",
    "Verif.Props.C17_violated"
   ],
   "note": "False: behind two inheriting certificates nothing is checked (witness). Proved: two levels always, and the full property when no inheriting certificate has an inheriting issuer."
  },
  {
   "property": "C18",
   "status": "proved",
   "theorems": [
    "Verif.Props.C18_terminates",
    "Verif.Props.C18_removes_subtree",
    "Verif.Props.C18_removes_nothing_else",
    "Verif.Props.C18_for_ever"
   ],
   "note": "For every state: ends, removes everything that depends on the object, nothing outside of what is below it, and never comes back."
  },
  {
   "property": "C19",
   "status": "partial",
   "theorems": [
    "Verif.Props.C19_later_rejected",
    "Verif.Props.C19_revoked_partial",
    "Verif.Props.C19_violated",
    "Verif.Props.C19_in_force",
    "Verif.Props.C19_in_force_partial"
   ],
   "note": "False when an issuer has two certificates with one serial (witness). Proved for certificates added later, and for all when the serial is unique."
  },
  {
   "property": "C20",
   "status": "partial",
   "theorems": [
    "Verif.Props.C20_removes_only_revoked",
    "Verif.Props.C20_isolated_partial",
    "Verif.Props.C20_violated"
   ],
   "note": "False for key ids of different lengths (key id and serial are glued together). Proved for equal lengths; removal is always limited to the issuer's listed certificates and what is below them."
  },
  {
   "property": "C21",
   "status": "proved",
   "theorems": [
    "Verif.Props.C21_never_replaced",
    "Verif.Props.C21_conflict",
    "Verif.Props.C21_conflict_signed"
   ],
   "note": "For all histories and states, also through ROAs and manifests."
  },
  {
   "property": "C22",
   "status": "partial",
   "theorems": [
    "Verif.Props.C22_roa_backed",
    "Verif.Props.C22_crl_backed",
    "Verif.Props.C22_manifest_partial",
    "Verif.Props.C22_violated_manifest"
   ],
   "note": "ROAs and CRLs proved; false for manifests, which stay in the table when their certificate is invalidated (witness); proved that they stay stored."
  },
  {
   "property": "C23",
   "status": "partial",
   "theorems": [
    "Verif.Props.C23_valid_entries_covered",
    "Verif.Props.C23_violated_malformed",
    "Verif.Props.C23_exported_authorised"
   ],
   "note": "For all histories in which ROAs come from the decoder. A malformed prefix is a counterexample for the entry part."
  },
  {
   "property": "C24",
   "status": "proved",
   "theorems": [
    "Verif.Props.C24_pinned",
    "Verif.Props.C24_unregistered",
    "Verif.Props.C24_history",
    "Verif.Props.C24_tal_file"
   ],
   "note": "One step (both directions) and over histories."
  },
  {
   "property": "C25",
   "status": "partial",
   "theorems": [
    "Verif.Props.C25_unissued_partial",
    "Verif.Props.C25_violated_unknown_issuer",
    "Verif.Props.C25_violated_misplaced"
   ],
   "note": "False: an unknown issuer crashes AddResource in every state, and a misplaced CRL is applied although it is rejected. Proved: AddCRL of an unissued CRL changes nothing."
  },
  {
   "property": "C26",
   "status": "proved",
   "theorems": [
    "Verif.Props.C26_once",
    "Verif.Props.C26_added_once",
    "Verif.Props.C26_never_lost",
    "Verif.Props.C26_put_known",
    "Verif.Props.C26_all_taken"
   ],
   "note": "For the whole life of a manager, any repository and any settings."
  },
  {
   "property": "C27",
   "status": "proved",
   "theorems": [
    "Verif.Props.C27_bounded",
    "Verif.Props.C27_terminates",
    "Verif.Props.C27_no_eof"
   ],
   "note": "Bound by the number of names; and termination in manifest mode whenever the FileSeeker knows finitely many paths."
  },
  {
   "property": "C28",
   "status": "proved",
   "theorems": [
    "Verif.Props.C28_hash_enforced",
    "Verif.Props.C28_content_bound",
    "Verif.Props.C28_mismatch_adds_nothing"
   ],
   "note": "The equality that is enforced, its meaning for contents when the FileSeeker's hashes bind, and that a mismatch adds nothing."
  },
  {
   "property": "C29",
   "status": "partial",
   "theorems": [
    "Verif.Props.C29_listed_partial",
    "Verif.Props.C29_explored_partial",
    "Verif.Props.C29_violated_second_listing"
   ],
   "note": "Proved for every listed file that is explored, in every order. False for a path that two manifests list: the second CA stays valid (witness)."
  },
  {
   "property": "C30",
   "status": "partial",
   "theorems": [
    "Verif.Props.C30_expansion",
    "Verif.Props.C30_rejected",
    "Verif.Props.C30_path",
    "Verif.Props.C30_path_other",
    "Verif.Props.C30_violated_trailing"
   ],
   "note": "Exact for steps followed by a separator, path computation exact; false for a name that is or ends in '..' (witness)."
  },
  {
   "property": "C31",
   "status": "partial",
   "theorems": [
    "Verif.Props.C31_file",
    "Verif.Props.C31_files",
    "Verif.Props.C31_dirs_partial",
    "Verif.Props.C31_violated_dirs",
    "Verif.Props.C31_violated_empty_base"
   ],
   "note": "Files: proved for every URI, operating system behaviour and whole run, with a non-empty cache directory name. Directories: violated (made before the URI is checked), partial for URIs without \"../\". There are no symbolic links in the model."
  },
  {
   "property": "C32",
   "status": "partial",
   "theorems": [
    "Verif.Props.C32_contains_partial",
    "Verif.Props.C32_place_partial",
    "Verif.Props.C32_violated_substring",
    "Verif.Props.C32_violated_scheme",
    "Verif.Props.C32_violated_file_as_directory",
    "Verif.Props.C32_no_stop_partial"
   ],
   "note": "Violated: the domain is searched anywhere in the URI, other schemes and a file used as a directory end the process (witnesses). Proved: nothing is written unless the URI contains the domain, the file then lies in the host's directory or has an element ending in \"rsync:\", and when the process goes on."
  },
  {
   "property": "C33",
   "status": "proved",
   "theorems": [
    "Verif.Props.C33_snapshot",
    "Verif.Props.C33_deltas",
    "Verif.Props.C33_no_notification"
   ],
   "note": "For every client state, notification, server behaviour and callback."
  },
  {
   "property": "C34",
   "status": "proved",
   "theorems": [
    "Verif.Props.C34_failure",
    "Verif.Props.C34_success",
    "Verif.Props.C34_monotone",
    "Verif.Props.C34_kept"
   ],
   "note": "Failure at any point; the serial never goes back within a session; also for the entries kept between runs."
  },
  {
   "property": "C35",
   "status": "partial",
   "theorems": [
    "Verif.Props.C35_content_partial",
    "Verif.Props.C35_violated_withdraw",
    "Verif.Props.C35_violated_nothing_removed"
   ],
   "note": "Content proved for every consistent server history. Absence of withdrawn or unlisted files is violated: nothing is ever removed."
  },
  {
   "property": "C36",
   "status": "partial",
   "theorems": [
    "Verif.Props.C36_retry_partial",
    "Verif.Props.C36_crash_partial",
    "Verif.Props.C36_lost_state_partial",
    "Verif.Props.C36_violated_withdraw_error"
   ],
   "note": "Failed runs, kills at any call with any torn content, lost state. Partial because errors of withdrawals are ignored (witness)."
  },
  {
   "property": "C37",
   "status": "partial",
   "theorems": [
    "Verif.Props.C37_violated_hash_ignored",
    "Verif.Props.C37_violated_witness"
   ],
   "note": "Violated: the hashes have no influence on the run at all."
  },
  {
   "property": "C38",
   "status": "partial",
   "theorems": [
    "Verif.Props.C38_rfc6811_partial",
    "Verif.Props.C38_violated_mapped",
    "Verif.Props.C38_violated_as0",
    "Verif.Props.C38_unreadable_route"
   ],
   "note": "Proved for all tables (fewer than 2^31-2 entries) and all routes with proper prefixes. Missing: IPv4-mapped IPv6 prefixes with a 128-bit mask, for which the property is false (C38_violated_mapped). C38_violated_as0 records that AS 0 is not treated specially."
  },
  {
   "property": "C39",
   "status": "partial",
   "theorems": [
    "Verif.Props.C39_covering_exact_partial"
   ],
   "note": "Proved for all tables (fewer than 2^31-2 entries) and all routes with proper prefixes: multiset, order by length, order of insertion within one prefix. Missing: the IPv4-mapped prefixes of C38_violated_mapped."
  },
  {
   "property": "C40",
   "status": "proved",
   "theorems": [
    "Verif.Props.C40_insert_total_v4",
    "Verif.Props.C40_insert_total_v6",
    "Verif.Props.C40_node_holds_v4",
    "Verif.Props.C40_node_holds_v6",
    "Verif.Props.C40_validate_total"
   ],
   "note": "No panic and one prefix per node for insertion sequences of any length, addresses, prefix lengths; contents of the nodes for fewer than 2^31-2 insertions (the code's tag keys have 32 bits). NewOV and Validate never panic."
  },
  {
   "property": "C41",
   "status": "partial",
   "theorems": [
    "Verif.Props.C41_max_length_exact",
    "Verif.Props.C41_entries_exact",
    "Verif.Props.C41_max_length_bound",
    "Verif.Props.C41_violated_mapped",
    "Verif.Props.C41_violated_bad_length"
   ],
   "note": "Exact for proper, not IPv4-mapped prefixes; counterexamples for mapped prefixes and out-of-range lengths."
  },
  {
   "property": "C42",
   "status": "partial",
   "theorems": [
    "Verif.Props.C42_roa_round_trip",
    "Verif.Props.C42_violated_mapped"
   ],
   "note": "For all lists of entries in network form; a mapped IPv6 prefix is a counterexample."
  },
  {
   "property": "C43",
   "status": "proved",
   "theorems": [
    "Verif.Props.C43_validate_exact",
    "Verif.Props.C43_roa_binding",
    "Verif.Props.C43_manifest_binding",
    "Verif.Props.C43_other_content_refused"
   ],
   "note": "Exact for Validate; carried to DecodeROA and DecodeManifest for every input. SHA-256 is a parameter; RSA is the modelled arithmetic. The octets hashed for the signature are those of C45. Octets after the content element are not covered (C47_primitive)."
  },
  {
   "property": "C44",
   "status": "partial",
   "theorems": [
    "Verif.Props.C44_strict_accepted",
    "Verif.Props.C44_accepted_block_partial",
    "Verif.Props.C44_violated_forgery",
    "Verif.Props.C44_violated_forged_object"
   ],
   "note": "Violated: forgery without private key under every exponent-3 key of at least 1306 bits, for every content. Proved: complete blocks are accepted, and what an accepted block must contain."
  },
  {
   "property": "C45",
   "status": "partial",
   "theorems": [
    "Verif.Props.C45_small_set_partial",
    "Verif.Props.C45_order_irrelevant",
    "Verif.Props.C45_violated_large_set",
    "Verif.Props.C45_violated_conforming_refused"
   ],
   "note": "Exact for sets of fewer than 128 octets; violated for every larger set, and conforming objects are then refused."
  },
  {
   "property": "C46",
   "status": "partial",
   "theorems": [
    "Verif.Props.C46_violated_validate",
    "Verif.Props.C46_violated_signing_time",
    "Verif.Props.C46_violated_decodeROA",
    "Verif.Props.C46_decodeROA_strict_partial",
    "Verif.Props.C46_decodeROA_signed_partial",
    "Verif.Props.C46_violated_decodeManifest",
    "Verif.Props.C46_decodeManifest_strict_partial"
   ],
   "note": "Violated: Validate, GetSigningTime, non-strict DecodeROA and (also strict) DecodeManifest crash. Proved: strict DecodeROA never crashes; strict DecodeManifest only inside the BER converter."
  },
  {
   "property": "C47",
   "status": "proved",
   "theorems": [
    "Verif.Props.C47_reassembly",
    "Verif.Props.C47_econtent",
    "Verif.Props.C47_primitive"
   ],
   "note": "All contents and all ways to cut them, up to the 2^31 octets that encoding/asn1 accepts."
  },
  {
   "property": "C48",
   "status": "proved",
   "theorems": [
    "Verif.Props.C48_text",
    "Verif.Props.C48_decode",
    "Verif.Props.C48_last_line_is_key"
   ],
   "note": "For all texts with comments, LF/CRLF and any wrapping; the ASN.1 layer is a parameter."
  },
  {
   "property": "C49",
   "status": "partial",
   "theorems": [
    "Verif.Props.C49_lines",
    "Verif.Props.C49_keys",
    "Verif.Props.C49_sizes",
    "Verif.Props.C49_rsa2048",
    "Verif.Props.C49_violated_rsa4096",
    "Verif.Props.C49_round_trip_partial",
    "Verif.Props.C49_violated_length",
    "Verif.Props.C49_violated_reencode"
   ],
   "note": "Round trip holds exactly when the length of the key info is a multiple of three: always for the 2048-bit keys of the RPKI, never for 4096-bit keys (padding is dropped on writing but required on reading)."
  },
  {
   "property": "C50",
   "status": "partial",
   "theorems": [
    "Verif.Props.C50_decoded_exact_partial",
    "Verif.Props.C50_violated_created"
   ],
   "note": "False for TALs made by CreateTAL (crash on every RSA certificate). Exact and total for TALs read from files."
  },
  {
   "property": "C51",
   "status": "proved",
   "theorems": [
    "Verif.Props.C51_dedup",
    "Verif.Props.C51_dedup_fixed"
   ],
   "note": "Exact for every list whose AS numbers are written without '/' (octorpki writes AS and a number)."
  },
  {
   "property": "C52",
   "status": "proved",
   "theorems": [
    "Verif.Props.C52_filter_exact",
    "Verif.Props.C52_filter_any_text",
    "Verif.Props.C52_unreadable_crashes"
   ],
   "note": "Exact for every list of readable prefixes, also unusual texts; an unreadable text crashes the filter."
  },
  {
   "property": "C53",
   "status": "partial",
   "theorems": [
    "Verif.Props.C53_asn_text",
    "Verif.Props.C53_line_lossless",
    "Verif.Props.C53_output_exact",
    "Verif.Props.C53_count_partial",
    "Verif.Props.C53_violated_count",
    "Verif.Props.C53_violated_crash",
    "Verif.Props.C53_violated_asn"
   ],
   "note": "The list is proved exact for well-formed authorisations, with and without the filter. Violated: the count includes duplicates and filtered entries; a malformed prefix authorised by a malformed certificate entry crashes the program (filter on) or is published as <nil>; AS numbers outside 32 bits are published and read as 0."
  },
  {
   "property": "C54",
   "status": "proved",
   "theorems": [
    "Verif.Props.C54_digest_order",
    "Verif.Props.C54_digest_binds",
    "Verif.Props.C54_trust_anchor_not_covered"
   ],
   "note": "Order independence and binding of the multiset (and of the dates for the second digest), up to collisions of the hash. The trust anchor is not covered."
  },
  {
   "property": "C55",
   "status": "proved",
   "theorems": [
    "Verif.Props.C55_signed_verifies",
    "Verif.Props.C55_unsigned_refused"
   ],
   "note": "ECDSA is a parameter with the usual correctness hypothesis; hexadecimal and DER are modelled."
  },
  {
   "property": "C56",
   "status": "proved",
   "theorems": [
    "Verif.Props.C56_stable_sound",
    "Verif.Props.C56_reduction_exact",
    "Verif.Props.C56_never_first",
    "Verif.Props.C56_limit_zero_stops_at_once"
   ],
   "note": "Over arbitrary sequences of discoveries. The limit counts as in the code: AtLimit says what it means in terms of the rounds. With max.iterations \u2264 0 the first round is declared stable by the limit."
  },
  {
   "property": "C57",
   "status": "partial",
   "theorems": [
    "Verif.Props.C57_rounds_between_waits_partial",
    "Verif.Props.C57_always_pauses",
    "Verif.Props.C57_violated"
   ],
   "note": "The code compares after the increment with '>': max+1 rounds are possible, for every limit (C57_violated); C57_rounds_between_waits_partial is the exact bound; C57_always_pauses is the liveness part."
  },
  {
   "property": "C58",
   "status": "partial",
   "theorems": [
    "Verif.Props.C58_written_exact",
    "Verif.Props.C58_ended_has_written_partial",
    "Verif.Props.C58_ends",
    "Verif.Props.C58_violated"
   ],
   "note": "Violated: at the limit the flag is set after the output step, so a one-off run with output.wait ends without output. Exact description of what is written, and the partial theorem for ends by a quiet round or without waiting."
  },
  {
   "property": "C59",
   "status": "partial",
   "theorems": [
    "Verif.Props.C59_served_only_after_stable_partial",
    "Verif.Props.C59_unavailable_before_first_stable",
    "Verif.Props.C59_served_while_waiting",
    "Verif.Props.C59_still_served_partial",
    "Verif.Props.C59_no_wait_always_served",
    "Verif.Props.C59_health_iff_served",
    "Verif.Props.C59_healthy_while_waiting",
    "Verif.Props.C59_violated_unstable_list",
    "Verif.Props.C59_violated_unavailable_again"
   ],
   "note": "Requests read the flags and the list at three independent moments. Violated twice: the list of an unstable round is served while the old flag is set, and a new repository brings 503 back."
  },
  {
   "property": "C60",
   "status": "partial",
   "theorems": [
    "Verif.Props.C60_violated",
    "Verif.Props.C60_etag_partial"
   ],
   "note": "Violated for every hash function: same second and same count give the same tag. Partial: the tag determines the time and the count up to collisions."
  },
  {
   "property": "C61",
   "status": "proved",
   "theorems": [
    "Verif.Props.C61_exactly_once",
    "Verif.Props.C61_jobs_accounted",
    "Verif.Props.C61_at_most_workers",
    "Verif.Props.C61_no_deadlock",
    "Verif.Props.C61_schedules_end",
    "Verif.Props.C61_completes",
    "Verif.Props.C61_zero_workers_stuck"
   ],
   "note": "Step relation over all schedules. A fetch that starts is assumed to end (finish may come at any time). Zero workers deadlock."
  },
  {
   "property": "C62",
   "status": "proved",
   "theorems": [
    "Verif.Props.C62_left_to_rsync",
    "Verif.Props.C62_any_schedule"
   ],
   "note": "Also combined with the pool: the same modules are left whatever the schedule."
  },
  {
   "property": "C63",
   "status": "partial",
   "theorems": [
    "Verif.Props.C63_issuer_path",
    "Verif.Props.C63_path_unique",
    "Verif.Props.C63_validator_objects",
    "Verif.Props.C63_path_of_valid",
    "Verif.Props.C63_path_has_no_hole",
    "Verif.Props.C63_self_issued_twice",
    "Verif.Props.C63_violated_hole"
   ],
   "note": "Also linked to reachable validator states: no hole in the path if the trust anchors name no issuer or a valid one; otherwise a nil file and a crash (C63_violated_hole)."
  },
  {
   "property": "C64",
   "status": "partial",
   "theorems": [
    "Verif.Props.C64_host_permanent_partial",
    "Verif.Props.C64_first_certificate_binds",
    "Verif.Props.C64_module_on_bound_host",
    "Verif.Props.C64_other_host_ignored",
    "Verif.Props.C64_certificate_scheduled",
    "Verif.Props.C64_violated_module"
   ],
   "note": "The host is permanent and set by the first certificate; the module can be replaced by another one of the same host (C64_violated_module)."
  },
  {
   "property": "C65",
   "status": "partial",
   "theorems": [
    "Verif.Props.C65_host",
    "Verif.Props.C65_file_path",
    "Verif.Props.C65_folders",
    "Verif.Props.C65_folders_rejects",
    "Verif.Props.C65_module_partial",
    "Verif.Props.C65_module_rejects",
    "Verif.Props.C65_violated_scheme",
    "Verif.Props.C65_violated_empty"
   ],
   "note": "Paths exact. Modules exact for rsync URLs; other schemes and empty names are accepted (witnesses)."
  },
  {
   "property": "C66",
   "status": "proved",
   "theorems": [
    "Verif.Props.C66_type_by_extension"
   ],
   "note": "Exact."
  },
  {
   "property": "C67",
   "status": "proved",
   "theorems": [
    "Verif.Props.C67_hex",
    "Verif.Props.C67_first_uri",
    "Verif.Props.C67_rsync_uri"
   ],
   "note": "Both cases, for all URI lists."
  },
  {
   "property": "C68",
   "status": "proved",
   "theorems": [
    "Verif.Props.C68_no_hang"
   ],
   "note": "Provided the decoders end."
  },
  {
   "property": "C69",
   "status": "proved",
   "theorems": [
    "Verif.Props.C69_certificate_files",
    "Verif.Props.C69_count"
   ],
   "note": "Exact."
  },
  {
   "property": "C70",
   "status": "proved",
   "theorems": [
    "Verif.Props.C70_stale_manifest",
    "Verif.Props.C70_current_manifest"
   ],
   "note": "Strict hash mode; both bounds; permanent."
  },
  {
   "property": "C73",
   "status": "partial",
   "theorems": [
    "Verif.Props.C73_roa_sign_decode",
    "Verif.Props.C73_manifest_sign_decode",
    "Verif.Props.C73_xml_sign_decode",
    "Verif.Props.C73_sign_succeeds",
    "Verif.Props.C73_violated_in_memory",
    "Verif.Props.C73_violated_strict",
    "Verif.Props.C73_octets"
   ],
   "note": "Reading back proved for all contents and keys (RSA correctness proved with Fermat's theorem); Sign succeeds exactly from 62 octets on. Violated: Validate on the object in memory always fails, and the strict decoders refuse library-made objects for every certificate not signed with bare rsaEncryption. SHA-256, times and certificate decoding are parameters."
  },
  {
   "property": "C74",
   "status": "partial",
   "theorems": [
    "Verif.Props.C74_roa_content_read",
    "Verif.Props.C74_roa_content_write",
    "Verif.Props.C74_violated_as_number"
   ],
   "note": "Exact both ways up to the 2^31 octets of encoding/asn1 and AS numbers below 2^63; violated for AS numbers outside 32 bits (witnesses)."
  },
  {
   "property": "C75",
   "status": "proved",
   "theorems": [
    "Verif.Props.C75_strict_check_exact",
    "Verif.Props.C75_no_signer_refused",
    "Verif.Props.C75_accepted_ends_in_null"
   ],
   "note": "Exact for DER certificates; the class of the parameters' tag is not checked by the code and appears in the statement."
  },
  {
   "property": "C76",
   "status": "proved",
   "theorems": [
    "Verif.Props.C76_manifest_content_read",
    "Verif.Props.C76_manifest_content_write",
    "Verif.Props.C76_explicit_version_refused",
    "Verif.Props.C76_names",
    "Verif.Props.C76_name_types"
   ],
   "note": "Exact both ways; times are parameters. The hash algorithm of the manifest is read but not checked by the code."
  },
  {
   "property": "C77",
   "status": "proved",
   "theorems": [
    "Verif.Props.C77_ipv6_text_exact",
    "Verif.Props.C77_prefix_text_exact",
    "Verif.Props.C77_prefix_text_round_trip",
    "Verif.Props.C77_prefix_text_injective",
    "Verif.Props.C77_host_bits_cleared",
    "Verif.Props.C77_read_is_network_form",
    "Verif.Props.C77_ipv4_text_exact",
    "Verif.Props.C77_ipv6_text_recommended",
    "Verif.Props.C77_recommended_unique"
   ],
   "note": "net.IP.String, IPNet.String and ParseCIDR modelled from the source of Go 1.19. Round trip, uniqueness and network form; the texts that are read are exactly those of RFC 4291 (IPv4: dotted decimal without leading zeros)."
  },
  {
   "property": "C71",
   "status": "partial",
   "theorems": [
    "Verif.Props.C71_module_names",
    "Verif.Props.C71_directory_partial",
    "Verif.Props.C71_inside_partial",
    "Verif.Props.C71_modules_apart_partial",
    "Verif.Props.C71_files_partial",
    "Verif.Props.C71_no_crash",
    "Verif.Props.C71_other_scheme_ends",
    "Verif.Props.C71_violated_outside",
    "Verif.Props.C71_violated_other_hosts",
    "Verif.Props.C71_path_text"
   ],
   "note": "Exact for host and module names other than '..'; for those the property is false (C71_violated_outside, C71_violated_other_hosts). rsync itself is a parameter that is assumed to write only below the directory it is given."
  },
  {
   "property": "C72",
   "status": "partial",
   "theorems": [
    "Verif.Props.C72_same_file_partial",
    "Verif.Props.C72_read_back_partial",
    "Verif.Props.C72_manifest_file_partial",
    "Verif.Props.C72_violated_two_schemes",
    "Verif.Props.C72_violated_empty_base",
    "Verif.Props.C72_violated_map_order"
   ],
   "note": "False for URIs that contain rsync:// twice, for an empty cache directory, and for several overlapping mappings (order of a Go map)."
  },
  {
   "property": "C79",
   "status": "partial",
   "theorems": [
    "Verif.Props.C79_stored_partial",
    "Verif.Props.C79_https_only",
    "Verif.Props.C79_other_files",
    "Verif.Props.C79_failover",
    "Verif.Props.C79_violated_failover"
   ],
   "note": "The HTTP part holds; the failover to rsync turns the place of the certificate into a directory (C79_violated_failover)."
  },
  {
   "property": "C80",
   "status": "partial",
   "theorems": [
    "Verif.Props.C80_found_exact",
    "Verif.Props.C80_missing_reported_partial",
    "Verif.Props.C80_violated_manifest_files"
   ],
   "note": "Holds for files known by their full URI; for files listed in manifests the module is computed from the bare name, so nothing is ever reported (C80_violated_manifest_files)."
  },
  {
   "property": "C81",
   "status": "partial",
   "theorems": [
    "Verif.Props.C81_violated_nothing_listed",
    "Verif.Props.C81_types",
    "Verif.Props.C81_bad_file",
    "Verif.Props.C81_all_files_partial",
    "Verif.Props.C81_listing"
   ],
   "note": "False for rsync URIs (the URI itself is listed instead of the local path); proved for a repository named by its local path."
  },
  {
   "property": "C82",
   "status": "partial",
   "theorems": [
    "Verif.Props.C82_no_strict_hash_partial",
    "Verif.Props.C82_same_dates_partial",
    "Verif.Props.C82_violated"
   ],
   "note": "Violated: the manifest check under strict hashes (CheckExpired) reads time.Now(), not the chosen time; C82_violated gives two days with different results. Proved: no dependence without strict hashes, and with them only through which manifests are out of their dates."
  },
  {
   "property": "C78",
   "status": "partial",
   "theorems": [
    "Verif.Props.C78_line_backed_partial",
    "Verif.Props.C78_held_partial",
    "Verif.Props.C78_violated_overclaim",
    "Verif.Props.C78_exact_partial"
   ],
   "note": "Soundness (signature, chain, certificate by certificate, to the certificate that the TAL says where to find, with the key that the TAL says, EE resources, manifest listing with hash) proved for every line; coverage by all issuers proved when no two inheriting certificates follow each other; exactness for well-formed VRPs. Violated: a list with 11.0.0.0/8 from a trust anchor that holds only 10.0.0.0/8 (two inheriting certificates in a row)."
  },
  {
   "property": "C83",
   "status": "partial",
   "theorems": [
    "Verif.Props.C83_planned_exact",
    "Verif.Props.C83_violated_no_renewal",
    "Verif.Props.C83_missing_fetched_partial",
    "Verif.Props.C83_failover",
    "Verif.Props.C83_violated_expired"
   ],
   "note": "Proved: planned exactly if no certificate with the key of the TAL is in the cache; a planned download is stored and used (one TAL). Violated: the mark is set by the key alone, before the dates are checked, so an expired or replaced certificate with the TAL's key is never downloaded again over HTTPS, for any number of rounds and all answers."
  },
  {
   "property": "C84",
   "status": "partial",
   "theorems": [
    "Verif.Props.C84_dates_partial",
    "Verif.Props.C84_as_read_partial",
    "Verif.Props.C84_as_remainder",
    "Verif.Props.C84_certificate_backed",
    "Verif.Props.C84_certificate_complete",
    "Verif.Props.C84_roa_backed",
    "Verif.Props.C84_outputs_agree",
    "Verif.Props.C84_manifest_partial",
    "Verif.Props.C84_own_fields",
    "Verif.Props.C84_signed_complete",
    "Verif.Props.C84_violated_manifest",
    "Verif.Props.C84_violated_values"
   ],
   "note": "Proved: certificates and ROAs shown are backed (chain, file, manifest hash in strict mode with unchanged files), complete, and agree with the list. Partial: dates only from 1677 to 2262, AS 0 not readable; violated: a revoked manifest stays in the file (its list is not cleared), dates after 2262 wrap, AS 0 is shown as an empty object. Not modelled: the fields name, emitted and mft-number."
  },
  {
   "property": "C85",
   "status": "partial",
   "theorems": [
    "Verif.Props.C85_ip_read",
    "Verif.Props.C85_ip_sound_partial",
    "Verif.Props.C85_ip_write",
    "Verif.Props.C85_ip_round_trip",
    "Verif.Props.C85_violated_safi_inherit",
    "Verif.Props.C85_violated_not_null",
    "Verif.Props.C85_violated_dropped",
    "Verif.Props.C85_violated_long"
   ],
   "note": "Reading of DER and writing proved in full (bit strings no longer than an address; lists as in C11). Soundness is partial: what is accepted is characterised exactly by LaxBlock, which is wider than the grammar. Violated: any element of tag number 5 counts as inherit, unknown elements are dropped, SAFI on inherit loses the family, range ends longer than an address are cut."
  },
  {
   "property": "C86",
   "status": "partial",
   "theorems": [
    "Verif.Props.C86_as_read",
    "Verif.Props.C86_as_sound_partial",
    "Verif.Props.C86_as_write_partial",
    "Verif.Props.C86_as_round_trip_partial",
    "Verif.Props.C86_violated_inherit_last",
    "Verif.Props.C86_violated_order"
   ],
   "note": "Reading proved in full; soundness against LaxAS; writing and round trip without inherit among numbers. Violated: inherit after a number is written as octets outside the grammar and read as nothing; fields in the wrong order are dropped."
  },
  {
   "property": "C87",
   "status": "partial",
   "theorems": [
    "Verif.Props.C87_access_read",
    "Verif.Props.C87_access_sound",
    "Verif.Props.C87_access_write",
    "Verif.Props.C87_access_round_trip",
    "Verif.Props.C87_info_access",
    "Verif.Props.C87_key_identifiers",
    "Verif.Props.C87_policy_write_partial",
    "Verif.Props.C87_violated_no_cps"
   ],
   "note": "Proved except for the policy extension without CPS address, which is written with an empty list of qualifiers (violated). Object identifiers are kept as contents octets; arcs below 2^28."
  },
  {
   "property": "C88",
   "status": "partial",
   "theorems": [
    "Verif.Props.C88_decode",
    "Verif.Props.C88_order",
    "Verif.Props.C88_violated_critical",
    "Verif.Props.C88_access_points",
    "Verif.Props.C88_ip_contained",
    "Verif.Props.C88_as_contained"
   ],
   "note": "x509.ParseCertificate is a parameter (any function from octets to a list of extensions). Proved: exact effect of the extensions, order, access points, containment from octets. Violated: the critical bit is not looked at and unknown critical extensions are ignored (also RFC 8360 resources)."
  },
  {
   "property": "C89",
   "status": "partial",
   "theorems": [
    "Verif.Props.C89_json",
    "Verif.Props.C89_json_position_partial",
    "Verif.Props.C89_json_no_panic",
    "Verif.Props.C89_violated_not_utf8",
    "Verif.Props.C89_position_was_reached_partial",
    "Verif.Props.C89_no_panic",
    "Verif.Props.C89_reached_was_announced",
    "Verif.Props.C89_next_round",
    "Verif.Props.C89_one_of_three",
    "Verif.Props.C89_violated_frozen",
    "Verif.Props.C89_violated_other_endpoint"
   ],
   "note": "Proved for the rsync module, with no panic on the map, and the exact three positions the next round may find; false for the endpoint: positions are keyed by rsync module, so a second endpoint with the same module can freeze the first. encoding/json is modelled, and C89_json proves the laws that the other theorems assume of it; false for modules whose names are not UTF-8."
  },
  {
   "property": "C90",
   "status": "partial",
   "theorems": [
    "Verif.Props.C90_heals_partial",
    "Verif.Props.C90_violated_session_returns",
    "Verif.Props.C90_violated_position_returns"
   ],
   "note": "Proved for servers whose sessions and dropped deltas do not come back and for positions that do not come back once lost (withdrawn files stay, C35). False otherwise: two witnesses."
  },
  {
   "property": "C91",
   "status": "partial",
   "theorems": [
    "Verif.Props.C91_created_is_read",
    "Verif.Props.C91_created_signature",
    "Verif.Props.C91_created_is_of_issuer",
    "Verif.Props.C91_created_list_revokes",
    "Verif.Props.C91_created_iff",
    "Verif.Props.C91_no_signer",
    "Verif.Props.C91_created_form_partial",
    "Verif.Props.C91_violated_empty",
    "Verif.Props.C91_violated_long_key"
   ],
   "note": "Proved, with two deviations as negations: a list without revoked certificates is written with an empty sequence, which RFC 5280 forbids; a key identifier of 126 octets or more is not recognised by the validator. Reading of times and of names are parameters (a law states that written times are read back)."
  },
  {
   "property": "C92",
   "status": "proved",
   "theorems": [
    "Verif.Props.C92_no_panic",
    "Verif.Props.C92_reads_der",
    "Verif.Props.C92_reads_rpki",
    "Verif.Props.C92_key"
   ],
   "note": "Proved for all octets (safety) and for every list in DER form. Reading of times and names are parameters."
  },
  {
   "property": "C93",
   "status": "partial",
   "theorems": [
    "Verif.Props.C93_round_ends",
    "Verif.Props.C93_modules_partial",
    "Verif.Props.C93_every_module",
    "Verif.Props.C93_module_once",
    "Verif.Props.C93_url_named_partial",
    "Verif.Props.C93_last_url_partial",
    "Verif.Props.C93_page",
    "Verif.Props.C93_violated_stale_url",
    "Verif.Props.C93_violated_shared_module"
   ],
   "note": "Partial: modules, uniqueness, naming and no panic are proved for all rounds and growth policies. The claim that the URL of the last certificate is shown holds for the last module of each list and is false in general (stale pointer), and a module shared by two trust anchors is shown under the first only; both are proved as negations."
  },
  {
   "property": "C94",
   "status": "partial",
   "theorems": [
    "Verif.Props.C94_generalized",
    "Verif.Props.C94_utc",
    "Verif.Props.C94_no_panic",
    "Verif.Props.C94_order",
    "Verif.Props.C94_one_moment",
    "Verif.Props.C94_fields_in_utc",
    "Verif.Props.C94_reads_written",
    "Verif.Props.C94_lists_read",
    "Verif.Props.C94_manifests_read",
    "Verif.Props.C94_violated_other_forms"
   ],
   "note": "Acceptance is characterised exactly for both types, with value, order, read back and no panic. Partial in one respect: zones other than Z and UTCTime without seconds are accepted although RFC 5280 4.1.2.5 forbids them; this is proved as a negation."
  },
  {
   "property": "C95",
   "status": "partial",
   "theorems": [
    "Verif.Props.C95_only_unknown_issuer_partial",
    "Verif.Props.C95_exact_partial",
    "Verif.Props.C95_violated_unknown_issuer",
    "Verif.Props.C95_violated_validation",
    "Verif.Props.C95_violated_certificate_root"
   ],
   "note": "Partial because the property as a user wants it is false: a revocation list with an unknown authority key identifier dereferences nil, also through a whole run over several TALs, and so does a root certificate file with CRL distribution points. Proved: this is the only crash (either mode), and exactly it in manifest mode, given decoders that do not panic on the octets (C03, C14 and others treat these)."
  },
  {
   "property": "C96",
   "status": "partial",
   "theorems": [
    "Verif.Props.C96_once",
    "Verif.Props.C96_read",
    "Verif.Props.C96_every_repository",
    "Verif.Props.C96_violated_names",
    "Verif.Props.C96_violated_twice"
   ],
   "note": "Reading each repository once and completely is proved in full. The last sentence is false and its negation is proved: the files of a repository are kept under a path that has the directory twice, so a file that was read on its own is given to the validator again."
  },
  {
   "property": "C97",
   "status": "partial",
   "theorems": [
    "Verif.Props.C97_same",
    "Verif.Props.C97_blame_partial",
    "Verif.Props.C97_losses",
    "Verif.Props.C97_quiet",
    "Verif.Props.C97_delivery",
    "Verif.Props.C97_violated_unread",
    "Verif.Props.C97_violated_absent",
    "Verif.Props.C97_violated_crl",
    "Verif.Props.C97_violated_no_log"
   ],
   "note": "Blame, reasons, losses, absence of effects and delivery are proved. Not true, with negations proved: a revocation list that is rejected is reported as a nil error without file or reason; a listed file that is not there is not reported when manifests are not strict; without a log rejected files are not reported at all; nothing waits for the collector, so reports can be unread when the program ends. Texts of the errors are not modelled."
  },
  {
   "property": "C98",
   "status": "partial",
   "theorems": [
    "Verif.Props.C98_listed_partial",
    "Verif.Props.C98_last_line",
    "Verif.Props.C98_no_crash",
    "Verif.Props.C98_violated_short",
    "Verif.Props.C98_violated_long_line",
    "Verif.Props.C98_violated_deleting",
    "Verif.Props.C98_violated_chatter"
   ],
   "note": "The list is exact for lines that fit; not true, with negations proved: a line of 64 KiB (the server's message of the day can have one) hides everything after it without an error, a name that begins with 'deleting ' is listed under another name as deleted, a line of a message that ends like an object is listed, and a URL of less than eight bytes crashes. What rsync prints in front of names is part of the specification (Spec/RsyncOut). The error of the tool is not modelled here."
  },
  {
   "property": "C99",
   "status": "partial",
   "theorems": [
    "Verif.Props.C99_directories",
    "Verif.Props.C99_one_per_module",
    "Verif.Props.C99_longest",
    "Verif.Props.C99_covered_partial",
    "Verif.Props.C99_iteration",
    "Verif.Props.C99_violated_order",
    "Verif.Props.C99_violated_host"
   ],
   "note": "All parts are proved for every history and order of iteration, except that nothing is left out: that holds for URLs added before those below them; the count of an entry that exists is added to a copy, so the other order loses the URL (negation proved), and so is a URL without module (negation proved)."
  },
  {
   "property": "C100",
   "status": "proved",
   "theorems": [
    "Verif.Props.C100_lines_exact",
    "Verif.Props.C100_line_backed",
    "Verif.Props.C100_same_as_octorpki"
   ],
   "note": "Exactness and absence of crashes hold in both modes; backing and paths are for manifest mode. The JSON text of the output, the parsing of flags and the writing of the file are not modelled."
  },
  {
   "property": "C101",
   "status": "partial",
   "theorems": [
    "Verif.Props.C101_fetched_next",
    "Verif.Props.C101_fetched_rsync",
    "Verif.Props.C101_anchor_fetched",
    "Verif.Props.C101_rsync_only_named",
    "Verif.Props.C101_rrdp_only_named",
    "Verif.Props.C101_rrdp_one_host",
    "Verif.Props.C101_stable_tried",
    "Verif.Props.C101_line_backed_partial",
    "Verif.Props.C101_served",
    "Verif.Props.C101_violated_manifest_module"
   ],
   "note": "Named means: the first repository that the certificate names, with an RRDP URL (if any) bound to the same host; a certificate whose RRDP URL is bound to another host is left out (C64). Violated for manifests that lie elsewhere. Lines are backed in manifest mode, as in C78."
  },
  {
   "property": "C102",
   "status": "partial",
   "theorems": [
    "Verif.Props.C102_violated_null_text",
    "Verif.Props.C102_round_ends",
    "Verif.Props.C102_violated_rrdp_server",
    "Verif.Props.C102_violated_null_positions"
   ],
   "note": "Manifest mode, as in C78. Files do not change between an exploration and the list of the same round (nobody else writes the cache). That explorations end without a crash is C95; the two violations are crashes of the RRDP phase in a run of the whole program."
  },
  {
   "property": "C103",
   "status": "partial",
   "theorems": [
    "Verif.Props.C103_no_race_partial",
    "Verif.Props.C103_violated_info",
    "Verif.Props.C103_violated_roas"
   ],
   "note": "The goroutines are modelled by what they read, write, lock and load; the values that decide branches are inputs. Without the senders of Certificate Transparency. Exposed fields (Spec/Conc) are what is missing; for each of them a racing run is given."
  },
  {
   "property": "C104",
   "status": "partial",
   "theorems": [
    "Verif.Props.C104_loop_ends_partial",
    "Verif.Props.C104_request_ends_partial",
    "Verif.Props.C104_violated_resources"
   ],
   "note": "Missing: requests for resources that are ready, for which the claim is false. Downloads and commands are taken to return. A waiting writer keeps new readers out, as in sync.RWMutex."
  },
  {
   "property": "C105",
   "status": "partial",
   "theorems": [
    "Verif.Props.C105_octorpki",
    "Verif.Props.C105_violated_no_threads",
    "Verif.Props.C105_ctrpki_partial",
    "Verif.Props.C105_violated_lost",
    "Verif.Props.C105_alone",
    "Verif.Props.C105_chain",
    "Verif.Props.C105_roa",
    "Verif.Props.C105_manifest",
    "Verif.Props.C105_unreadable",
    "Verif.Props.C105_violated_unreadable",
    "Verif.Props.C105_progress",
    "Verif.Props.C105_violated_twice",
    "Verif.Props.C105_server",
    "Verif.Props.C105_violated_oneoff"
   ],
   "note": "Holds for octorpki in server mode with threads (order, content, exactly once, termination). Violations proved: one-off mode never submits, zero threads hang, ctrpki loses up to n chains (exactly reachable for every n and every list of at least 2n chains), repeats chains over TALs, crashes on an unreadable file."
  },
  {
   "property": "C106",
   "status": "partial",
   "theorems": [
    "Verif.Props.C106_node",
    "Verif.Props.C106_cut",
    "Verif.Props.C106_root",
    "Verif.Props.C106_root_cut",
    "Verif.Props.C106_number",
    "Verif.Props.C106_violated_nothing",
    "Verif.Props.C106_violated_unchecked",
    "Verif.Props.C106_violated_twice",
    "Verif.Props.C106_root_nothing"
   ],
   "note": "The scanner of encoding/xml is a parameter; the decoding of its tokens into the structs is modelled. Reading, cut documents and numbers are proved; the violations (documents without an element, unchecked kind/session/serial, doubled objects) are theorems."
  },
  {
   "property": "C107",
   "status": "proved",
   "theorems": [
    "Verif.Props.C107_get",
    "Verif.Props.C107_same",
    "Verif.Props.C107_failover",
    "Verif.Props.C107_callback",
    "Verif.Props.C107_octorpki",
    "Verif.Props.C107_failover_off",
    "Verif.Props.C107_message"
   ],
   "note": "The run with its errors is proved equal to the run of Model/Rrdp after forgetting the errors. Assumed: the error of a body that breaks off has another text than the one for the limit."
  },
  {
   "property": "C108",
   "status": "partial",
   "theorems": [
    "Verif.Props.C108_value",
    "Verif.Props.C108_refused",
    "Verif.Props.C108_round",
    "Verif.Props.C108_library",
    "Verif.Props.C108_violated_short"
   ],
   "note": "Garner's recombination is proved for any number of primes with Mathlib's number theory. The violation is shown with a key of thirteen primes."
  },
  {
   "property": "C109",
   "status": "partial",
   "theorems": [
    "Verif.Props.C109_same",
    "Verif.Props.C109_justified",
    "Verif.Props.C109_made",
    "Verif.Props.C109_text",
    "Verif.Props.C109_text_resources",
    "Verif.Props.C109_text_hash",
    "Verif.Props.C109_wrapped",
    "Verif.Props.C109_tags",
    "Verif.Props.C109_extras",
    "Verif.Props.C109_names",
    "Verif.Props.C109_violated_file",
    "Verif.Props.C109_violated_end",
    "Verif.Props.C109_violated_rdi"
   ],
   "note": "C109_same ties the errors to the decisions of the model of pki.go. Not modelled: stack traces and extras that hold whole structures. Three violations are proved."
  },
  {
   "property": "C110",
   "status": "partial",
   "theorems": [
    "Verif.Props.C110_start",
    "Verif.Props.C110_document",
    "Verif.Props.C110_redirect",
    "Verif.Props.C110_served",
    "Verif.Props.C110_pages",
    "Verif.Props.C110_violated_empty",
    "Verif.Props.C110_violated_form",
    "Verif.Props.C110_violated_no_slash",
    "Verif.Props.C110_origin",
    "Verif.Props.C110_preflight",
    "Verif.Props.C110_violated_spaces"
   ],
   "note": "The multiplexer is the one of net/http before Go 1.22, which a module with go 1.19 gets. Not covered: the method CONNECT, hosts that begin with a slash, origins that are not ASCII. Four violations are proved."
  },
  {
   "property": "C111",
   "status": "partial",
   "theorems": [
    "Verif.Props.C111_document",
    "Verif.Props.C111_document_exact",
    "Verif.Props.C111_unambiguous",
    "Verif.Props.C111_reads",
    "Verif.Props.C111_exact",
    "Verif.Props.C111_refuses",
    "Verif.Props.C111_determines",
    "Verif.Props.C111_cut",
    "Verif.Props.C111_answer_cut",
    "Verif.Props.C111_crash",
    "Verif.Props.C111_violated_crash",
    "Verif.Props.C111_made_lists",
    "Verif.Props.C111_safe",
    "Verif.Props.C111_violated_names"
   ],
   "note": "encoding/json is modelled function by function: the writer with its escapes, the syntax check (a state machine over octets), the reader. The reader is characterised in both directions: it accepts exactly the grammar of RFC 8259, at most 10000 brackets deep, but for strings with octets that are not UTF-8 or surrogates that are not a pair. Two violations are proved."
  },
  {
   "property": "C112",
   "status": "partial",
   "theorems": [
    "Verif.Props.C112_identifier",
    "Verif.Props.C112_other_kinds",
    "Verif.Props.C112_identifies",
    "Verif.Props.C112_written",
    "Verif.Props.C112_read",
    "Verif.Props.C112_exact",
    "Verif.Props.C112_total",
    "Verif.Props.C112_check",
    "Verif.Props.C112_violated_lax"
   ],
   "note": "encoding/asn1 on keys is modelled down to octets, which removes the parameter of C48-C50. The exact set of infos that are read as a key is proved; that it is larger than DER is the violation. Keys of 2 GiB and more are out of scope (encoding/asn1 reads no such element)."
  },
  {
   "property": "C113",
   "status": "partial",
   "theorems": [
    "Verif.Props.C113_token",
    "Verif.Props.C113_scan",
    "Verif.Props.C113_node",
    "Verif.Props.C113_root",
    "Verif.Props.C113_cut",
    "Verif.Props.C113_root_cut",
    "Verif.Props.C113_mismatch",
    "Verif.Props.C113_size",
    "Verif.Props.C113_chars",
    "Verif.Props.C113_no_entities",
    "Verif.Props.C113_violated_prefix"
   ],
   "note": "The scanner of encoding/xml is modelled down to octets (strict mode, no charset reader), which removes the parameter of C106. Exact: a token is read if and only if the grammar of Spec/Xml has it there. Only names beyond ASCII stay a parameter (tables of Unicode). The violation is about names with a prefix."
  },
  {
   "property": "C114",
   "status": "partial",
   "theorems": [
    "Verif.Props.C114_message",
    "Verif.Props.C114_inner",
    "Verif.Props.C114_inner_error",
    "Verif.Props.C114_full",
    "Verif.Props.C114_child_request",
    "Verif.Props.C114_parent_response",
    "Verif.Props.C114_ends",
    "Verif.Props.C114_cut",
    "Verif.Props.C114_one_kind",
    "Verif.Props.C114_list",
    "Verif.Props.C114_violated_behind",
    "Verif.Props.C114_violated_space"
   ],
   "note": "Decoder.Decode of encoding/xml is modelled for the structs of ca/xml.go, on the scanner of C113. All decoders are characterised in both directions by a grammar of octets. Only names beyond ASCII stay a parameter. DecodeXML gives with an error a message that is filled in part; the model gives none. The structs for publisher requests and repository responses have no decoder."
  },
  {
   "property": "C115",
   "status": "partial",
   "theorems": [
    "Verif.Props.C115_exact",
    "Verif.Props.C115_once",
    "Verif.Props.C115_decode",
    "Verif.Props.C115_signed",
    "Verif.Props.C115_violated_trailing",
    "Verif.Props.C115_no_panic",
    "Verif.Props.C115_signer",
    "Verif.Props.C115_violated_version",
    "Verif.Props.C115_violated_usage",
    "Verif.Props.C115_violated_path",
    "Verif.Props.C115_violated_critical",
    "Verif.Props.C115_reads"
   ],
   "note": "crypto/x509 of Go 1.19 (parser.go) and the reader of x/crypto/cryptobyte are modelled down to octets; both directions are proved against a specification of the octets. Parameters (Lib): UTF-8 and UTF-16 checks of names, keys other than RSA, and the checks of subjectAltName, nameConstraints and extKeyUsage, whose values nothing uses. The signature check itself is a parameter. Fields of the Go struct that nothing reads are not modelled."
  },
  {
   "property": "C116",
   "status": "partial",
   "theorems": [
    "Verif.Props.C116_certificate",
    "Verif.Props.C116_roa_same",
    "Verif.Props.C116_manifest_same",
    "Verif.Props.C116_roa",
    "Verif.Props.C116_manifest",
    "Verif.Props.C116_signed",
    "Verif.Props.C116_signed_only",
    "Verif.Props.C116_crl_only",
    "Verif.Props.C116_crl",
    "Verif.Props.C116_violated_crl_usage",
    "Verif.Props.C116_line"
   ],
   "note": "The decoders of the validator put together from the octet models (X509, Cms, CmsEncode, Time, Crl, Spki); C78 and C15 instantiated with them. Parameters: SHA-1, SHA-256, the check of a signature with a key, texts of names. Manifest mode. Coverage of the prefix by the EE certificate for proper prefixes; for the issuers see C78."
  },
  {
   "property": "C117",
   "status": "partial",
   "theorems": [
    "Verif.Props.C117_roa",
    "Verif.Props.C117_manifest",
    "Verif.Props.C117_exact",
    "Verif.Props.C117_run",
    "Verif.Props.C117_violated_list",
    "Verif.Props.C117_violated_octets"
   ],
   "note": "C117_roa, C117_manifest: exact conditions on octets; C117_exact: the hypothesis of C95 is equivalent to a condition on octets; C117_run: the exploration in manifest mode. Hypothesis: the library parts that are not modelled come back (Quiet). Roots are TAL files."
  },
  {
   "property": "C118",
   "status": "partial",
   "theorems": [
    "Verif.Props.C118_line",
    "Verif.Props.C118_line_partial",
    "Verif.Props.C118_lists",
    "Verif.Props.C118_violated",
    "Verif.Props.C118_list_octets"
   ],
   "note": "C118_line: every line, with the exact exception (a later certificate with the same issuer key and serial); C118_line_partial: with different serials, without exception; C118_lists, C118_list_octets: the lists in force and their octets; C118_violated: a line of a ROA whose certificate is on the list in force is published, because another ROA's certificate has the same serial."
  },
  {
   "property": "C119",
   "status": "partial",
   "theorems": [
    "Verif.Props.C119_published_partial",
    "Verif.Props.C119_chain_partial",
    "Verif.Props.C119_roa_partial",
    "Verif.Props.C119_issued",
    "Verif.Props.C119_violated",
    "Verif.Props.C119_line_partial"
   ],
   "note": "C119_published_partial: one ROA below a valid issuer; C119_chain_partial, C119_roa_partial: whole chains; C119_issued: what the issuer must hold, in terms of addresses and AS numbers; C119_violated: a refused certificate with the same key id keeps the ROA out. C119_line_partial: from the files delivered in an exploration to the lines of the list (for well-formed VRPs, as C78_exact_partial)."
  },
  {
   "property": "C120",
   "status": "proved",
   "theorems": [
    "Verif.Props.C120_certificate",
    "Verif.Props.C120_roa",
    "Verif.Props.C120_root",
    "Verif.Props.C120_root_roa"
   ],
   "note": "C120_certificate and C120_roa rest on explore_follows: the exploration is a history of additions, in the order of the deliveries, and of invalidations with a reason. C120_root and C120_root_roa: the first cause, along the chain of issuers (for ROAs whose certificate was not also delivered as a TAL's)."
  },
  {
   "property": "C121",
   "status": "partial",
   "theorems": [
    "Verif.Props.C121_file",
    "Verif.Props.C121_crash",
    "Verif.Props.C121_repository",
    "Verif.Props.C121_violated_broken_stream",
    "Verif.Props.C121_violated_no_hashes",
    "Verif.Props.C121_violated_hash"
   ],
   "note": "C121_file, C121_repository, C121_crash: what is read, and what crashes. C121_violated_broken_stream, C121_violated_no_hashes (strict hash mode changes nothing, for every exploration) and C121_violated_hash (a listed ROA with a wrong hash, whatever the hash function is)."
  },
  {
   "property": "C122",
   "status": "proved",
   "theorems": [
    "Verif.Props.C122_exploration",
    "Verif.Props.C122_list",
    "Verif.Props.C122_repositories"
   ],
   "note": "C122_exploration: same validator, files and deliveries. C122_list: the same list, for any number of TALs. C122_repositories: the list made from a cache does not depend on which repositories the fetcher knows. Maps are walked in the same order in both executions. The example compares a source without hashes that fails where the other has no file."
  }
 ]
}