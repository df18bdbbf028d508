{
 "C03": {
  "status": "proved",
  "note": "The iterator decoder agrees with the vector decoder for all integer types; for Bit an invalid byte panics (C03_iter_bit_panics), so the agreement theorem is stated for the integer types only (suffix _partial)."
 },
 "C05": {
  "status": "proved",
  "note": "For u128 the code is todo!(): C05_128_panics."
 },
 "C29": {
  "status": "proved",
  "note": "Exact characterisation (answer iff enough triples, else every party panics). The naive claim that the triples always suffice is false of the code: C29_counterexamples, C29_left_over, C29_stuck, C29_small_chunks, C29_query_panics are proved negative results."
 },
 "C34": {
  "status": "proved",
  "note": "For 32- and 128-bit rings the code's assertion fires and the methods panic (C34_panics); the positive theorems carry 40 <= V-K."
 },
 "C36": {
  "status": "proved",
  "note": "For 32- and 128-bit rings comparisons panic (C36_panics); the positive theorems carry 40 <= V-K."
 },
 "C40": {
  "status": "proved",
  "note": "Equal inner lengths are assumed in dot_many; with unequal inner lengths the code silently truncates the zip instead of reporting InvalidSize (C40_size states what is checked)."
 },
 "C42": {
  "status": "proved",
  "note": "Negative result for Swift3: C42_swift3_not_complement."
 },
 "C44": {
  "status": "proved",
  "note": "Exact characterisation for K < 64; honest rejection exhibited in C44_honest_rejected; K >= 64 panics: C44_wide_mul, C44_wide_dot."
 },
 "C45": {
  "status": "proved",
  "note": "Negative result: C45_longDivision_trailing_zero."
 },
 "C46": {
  "status": "proved",
  "note": "Negative result: C46_isOne characterises the (wrong) predicate exactly."
 },
 "C48": {
  "status": "proved",
  "note": "Negative results: C48_id_too_large, C48_single_party."
 },
 "C49": {
  "status": "proved",
  "note": "Channels are assumed reliable byte streams (QUIC); jobs queue modelled without the capacity bound of 8. Negative result: C49_oversize_skipped."
 },
 "C50": {
  "status": "proved",
  "note": "tokio-util 0.7.10 LengthDelimitedCodec is modelled from its documented behaviour (4-byte big-endian length, 8 MiB limit)."
 },
 "C59": {
  "status": "proved",
  "note": "The coin is compared with a set fixed by the errors; C57 shows that a rushing corrupt party can choose its errors after learning the coin, so the bound is no guarantee against such a party. Errors are those in the first message of the corrupt party to its successor."
 }
}