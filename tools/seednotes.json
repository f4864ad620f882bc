{
 "seekToChunk (ChunkReader.lean) `ce < roundDownToBlockBoundary newPos` -> `ce ≤ roundDownToBlockBoundary newPos`": {
  "note": "equivalent mutant: when ce equals the block boundary, the search through the block header and the direct check reach the same chunk; the claim stays true, no theorem should fail"
 },
 "initPos (Padding.lean) `remainingInBlock pos), pos + remainingInBlock pos` -> `remainingInBlockHeader pos), pos + remainingInBlockHeader pos`": {
  "tightened": [
   "C15_start_of_appending"
  ],
  "note": "survived at first; C15_start_of_appending was added and now fails on this edit"
 },
 "SEnc.addRecords (Codec.lean) `s.sizes ++ sizesOfLimits 0 limits` -> `s.sizes ++ sizesOfLimits s.decodedDataSize limits`": {
  "tightened": [
   "C23_add_records"
  ],
  "note": "survived at first, because AddRecords was only used on an empty encoder; C23_add_records was added and now fails on this edit"
 },
 "sizesOfLimits (Codec.lean) `writeVarint (limit - start)` -> `writeVarint limit`": {
  "tightened": [
   "C23_add_records",
   "C23_deferred_encoder"
  ]
 },
 "DEnc.addRecord (ChunkDecoder.lean) `[(s.records ++ r).length]` -> `[r.length]`": {
  "tightened": [
   "C23_deferred_encoder"
  ]
 },
 "deferredSimpleEncoder (ChunkDecoder.lean) `some (b.encode C t, kSimple, b.decodedDataSize)` -> `some (b.encode C t, kTransposed, b.decodedDataSize)`": {
  "tightened": [
   "C23_deferred_encoder"
  ]
 },
 "searchMiddle (RecordSearch.lean) `if high ≤ rr.cr.pos then` -> `if False then`": {
  "note": "the edited branch is reached only after a failed seek and a recovery, i.e. on a damaged file; C33 ranges over well-formed files, and for those the edited program still satisfies it, so no theorem should fail"
 },
 "addLoop (TrEnc.lean) `addLoop e.1 r.2 (⟨e.2, parent,` -> `addLoop e.1 parent (⟨e.2, parent,`": {
  "note": "harmless for the claim: fields of a submessage then share columns with the fields of the parent with the same tags, which only affects compression; the decoder does not use parents, and the round trip remains true"
 },
 "collectPrivate (TrEnc.lean) `if (tags a).pos d = some 0 ∨ c = (tags d).incoming then` -> `if (tags a).pos d = some 0 ∨ c + 1 = (tags d).incoming then`": {
  "note": "harmless for the claim: whether a tag gets a private state is a choice of size only; every choice is decoded the same way, and the proof holds for any"
 },
 "addDummyDest (TrEnc.lean) `t.dests.headD 0 + 1` -> `t.dests.headD 0`": {
  "note": "harmless for the claim in the model, where destinations are a list: the duplicate still makes two destinations. The corresponding bug in the code is to drop the extra destination (withDummyDest edit above), which is killed"
 },
 "WSt.flush (TrEnc.lean) `if n ≠ s.cur.length then none` -> `if n > s.cur.length then none`": {
  "note": "this edits what is assumed about the compressor (it fails if the pledged size is wrong); the encoder never pledges a wrong size, hence the round trip remains true"
 },
 "messageStart (TrDec.lean) `if s.stack ≠ [] then none` -> `if False then none`": {
  "note": "weakens the detection of malformed input only; the claims about the decoder (it returns, its output is well-formed, valid chunks are decoded) remain true"
 },
 "nextBucket (TrDec.lean) `else if cur.2 = false then none` -> ``": {
  "note": "weakens the detection of malformed input only (trailing compressed data in a bucket); the claims about the decoder remain true"
 },
 "openBucket (TrDec.lean) `| none => b.2.map (fun _ => none)` -> `| none => b.2.map (fun _ => some [])`": {
  "note": "weakens the detection of malformed input only (a damaged chunk read with a projection); the claims about projection are about chunks made by the encoder, and remain true of the edited program"
 },
 "finish (TrDec.lean) `else if s.skipped ≠ 0 then none` -> `else if False then none`": {
  "note": "weakens the detection of malformed input only (a damaged chunk read with a projection); the claims about projection are about chunks made by the encoder, and remain true of the edited program"
 },
 "nextBucketF (TrDec.lean) `nextBucketF t n (b, []) (cur :: done) bs` -> `some (n, (b, []), cur :: done, bs)`": {
  "note": "weakens the detection of malformed input only (a damaged chunk read with a projection); the claims about projection are about chunks made by the encoder, and remain true of the edited program"
 },
 "parseBuffersF (TrDec.lean) `else if remaining > 0 then none` -> `else if False then none`": {
  "note": "weakens the detection of malformed input only (a damaged chunk read with a projection); the claims about projection are about chunks made by the encoder, and remain true of the edited program"
 },
 "parseBuffersF (TrDec.lean) `if rest ≠ [] then none\n              else if remaining` -> `if False then none\n              else if remaining`": {
  "note": "weakens the detection of malformed input only (a damaged chunk read with a projection); the claims about projection are about chunks made by the encoder, and remain true of the edited program"
 },
 "setExact (FdReader.lean) `if p.src.growing then p else` -> `if false then p else`": {
  "note": "harmless for the claims: nobody changes the file in the model (DESIGN 2), so the size found remains exact; the growing option only matters for files extended by somebody else"
 },
 "init (FdReader.lean) `if growing then\n` -> `if true then\n`": {
  "note": "harmless for the claims: nobody changes the file in the model (DESIGN 2), so looking again at a file of size 0 finds size 0"
 },
 "WSizer.endRun (BufferedWriter.lean) `(pos - z.base - 1)` -> `0`": {
  "note": "harmless for the claims: it changes only the size of the next buffer, which the claims do not mention"
 },
 "entriesFrom (WriteInt.lean) `if next ≤ upper then` -> `if next < upper then`": {
  "note": "equivalent program: a power of ten is never equal to the upper bound, which is a power of two minus one"
 },
 "hexStringifySigned (WriteInt.lean) `if hexMax bits + 1 < width` -> `if hexMax bits < width`": {
  "note": "equivalent program: for width = hexMax + 1 both branches give the sign and hexMax digits"
 },
 "cordReadSlow (MessageReader.lean) `if chunk.length < n then` -> `if chunk.length ≤ n then`": {
  "note": "Harmless: when the chunk has exactly n bytes, copying all of it and reading 0 bytes from the rest of the Cord yields the same bytes and the same position as the last branch."
 },
 "load (ObjectState.lean) `if c.deleted = 0 then some c else none` -> `some c`": {
  "note": "Harmless: not a change of the program, it removes the model's detector of use after free. The theorems prove that the detector never fires, so removing it changes nothing."
 },
 "stateFail (ObjectState.lean) `| .failed a => (h, .failed a)\n` -> `| .failed a => (h ++ [{ closed := false, status := s, deleted := 0 }], .failed h.length)\n`": {
  "note": "Harmless: the branch is not reachable. Both callers (Fail() and FailWithoutAnnotation()) check not_failed() first."
 },
 "failLimit (LimitingWriter.lean) `base := l.maxPos` -> `base := l.pos`": {
  "note": "Harmless for C52: only pos() after exceeding the limit changes, which no claim speaks about."
 },
 "piece (TextReader.lean) `if pre.length = R.avail s - 1 then` -> `if pre.length = k - 1 then`": {
  "note": "harmless: a CR at the end of the part examined is remembered as pending instead of being resolved at once; the next iteration resolves it to the same bytes"
 },
 "writeWith (DigestingWriter.lean) `let r := f g.2.dst` -> `let r := f s.2.dst`": {
  "note": "harmless: feeding the digester does not change the destination, so both terms are the same state"
 },
 "CdR (ChainReader.lean) `if D.length ≤ q then (decide (q = D.length)` -> `if D.length < q then (decide (q = D.length)`": {
  "note": "equivalent mutant: seeking exactly to the end goes through the other branch, which reaches the same position, with an empty buffer; the claim stays true, no theorem should fail"
 },
 "shardHint (SplittingWriter.lean) `min s.limitPos h` -> `h`": {
  "note": "survived; added C63_hint_within_limit, which fails with this edit",
  "tightened": [
   "C63_hint_within_limit"
  ]
 }
}