import Verif.Delta1.Huffman
import Verif.Text.Misc
/-
Model of compressor/bohe/bohe.py (the field encoders) and compressor/bohe/__init__.py (the Processor).
`compressor/delta_bohe/bohe.py` has the same encoders without ID_TABLE.

The library functions that the encoders call are parameters (`Libs`): `int`, `datetime.strptime`, `md5.new`,
werkzeug's `parse_dict_header` and `parse_accept_header`, and `Cookie.BaseCookie`.
-/
namespace Verif.Bohe
open Verif Verif.Bits Verif.Huff Verif.Text

/-- One cookie of a `BaseCookie`: its name, value and the attributes the encoder reads. -/
structure Morsel where
  name : Str
  value : Str
  path : Str
  domain : Str
  maxAge : Str
  expires : Str
  deriving DecidableEq, Repr

/-- What the encoders import. -/
structure Libs where
  /-- `int(s)`. -/
  int : Str → Py Int
  /-- `epoch(datetime.strptime(s, '%a, %d %b %Y %H:%M:%S GMT'))`, in whole seconds. -/
  date : Str → Py Int
  /-- `md5.new(s).digest()`. -/
  md5 : Str → Str
  /-- `http.parse_dict_header(s)` in iteration order; a value may be None. -/
  dictHeader : Str → Dict Str (Option Str)
  /-- `http.parse_accept_header(s)`: values, and whether the quality is above 0. -/
  acceptHeader : Str → List (Str × Bool)
  /-- `BaseCookie(s)` in iteration order. -/
  cookie : Str → Py (List Morsel)

/-- bohe.py 18, NEW_EPOCH: the first of January 1990, in seconds. -/
def newEpoch : Int := 631152000

/-- bohe.py 21-31, enc_date.  The first `try` covers the subtraction and enc_uvarint of a number, which do not
raise; numbers that are not whole cannot occur. -/
def encDate (L : Libs) (val : Str) : Str :=
  match L.date val with
  | .ok t => uvarint (t - newEpoch)
  | .error _ =>
    match L.int val with
    | .ok n => uvarint (max 0 n)
    | .error _ => uvarint 0

/-! ### attempt_decode -/

/-- `[a-fA-F0-9]`: the value of a hexadecimal digit. -/
def hexVal (c : Nat) : Option Nat :=
  if 48 ≤ c ∧ c ≤ 57 then some (c - 48)
  else if 65 ≤ c ∧ c ≤ 70 then some (c - 55)
  else if 97 ≤ c ∧ c ≤ 102 then some (c - 87)
  else none

/-- `[A-Za-z0-9+/]`: the value of a base64 digit. -/
def b64Val (c : Nat) : Option Nat :=
  if 65 ≤ c ∧ c ≤ 90 then some (c - 65)
  else if 97 ≤ c ∧ c ≤ 122 then some (c - 71)
  else if 48 ≤ c ∧ c ≤ 57 then some (c + 4)
  else if c = 43 then some 62
  else if c = 47 then some 63
  else none

/-- `^([a-fA-F0-9]{2})*$`; `$` also matches before a newline at the end. -/
def isHex : Str → Bool
  | [] => true
  | [c] => c == 10
  | a :: b :: rest => (hexVal a).isSome && (hexVal b).isSome && isHex rest

/-- `value.decode('hex_codec')`: TypeError for an odd length and for other characters. -/
def unhex : Str → Py Str
  | [] => .ok []
  | [_] => .error .type
  | a :: b :: rest =>
    match hexVal a, hexVal b with
    | some x, some y => (unhex rest).map ((16 * x + y) :: ·)
    | _, _ => .error .type

/-- `^(?:[A-Za-z0-9+/]{4})*(?:[A-Za-z0-9+/]{2}==|[A-Za-z0-9+/]{3}=)?$`. -/
def isB64 : Str → Bool
  | [] => true
  | [c] => c == 10
  | [_, _] => false
  | [_, _, _] => false
  | a :: b :: c :: d :: rest =>
    if (b64Val a).isSome && (b64Val b).isSome && (b64Val c).isSome && (b64Val d).isSome then isB64 rest
    else (b64Val a).isSome && (b64Val b).isSome && ((c == 61) || (b64Val c).isSome) && (d == 61) &&
      (rest == [] || rest == [10])

/-- `value.decode('base64_codec')` on what `isB64` accepts: `binascii.a2b_base64` ignores a newline and the bits
left over in front of the padding. -/
def unb64 : Str → Str
  | a :: b :: c :: d :: rest =>
    match b64Val a, b64Val b, b64Val c, b64Val d with
    | some w, some x, some y, some z =>
      (4 * w + x / 16) :: (16 * (x % 16) + y / 4) :: (64 * (y % 4) + z) :: unb64 rest
    | some w, some x, some y, none => [4 * w + x / 16, 16 * (x % 16) + y / 4]
    | some w, some x, none, _ => [4 * w + x / 16]
    | _, _, _, _ => []
  | _ => []

/-- bohe.py 215-223, attempt_decode of a string. -/
def attemptDecode (value : Str) : Py Str :=
  if isHex value then unhex value
  else if isB64 value then .ok (unb64 value)
  else .ok value

/-! ### Cookies -/

/-- bohe.py 76-79: the age of a cookie. -/
def encAge (L : Libs) (m : Morsel) : Py Str :=
  if 0 < m.maxAge.length then encUvarint L.int m.maxAge else .ok (encDate L m.expires)

/-- bohe.py 63-79: one cookie of a Set-Cookie header. -/
def encMorsel (L : Libs) (m : Morsel) : Py Str := do
  let value ← attemptDecode m.value
  let p ← packH m.path.length
  let d ← packH m.domain.length
  let age ← encAge L m
  pure (b!"." ++ uvarint m.name.length ++ m.name ++ uvarint value.length ++ value ++ (p ++ m.path) ++ (d ++ m.domain) ++ age)

/-- The loop bohe.py 63-79. -/
def encMorsels (L : Libs) : List Morsel → Py Str
  | [] => .ok []
  | m :: ms => do
    let a ← encMorsel L m
    let b ← encMorsels L ms
    pure (a ++ b)

/-- The loop bohe.py 57-79. -/
def encSetCookieLoop (L : Libs) : List Str → Str → Py Str
  | [], encoded => .ok encoded
  | v :: vs, encoded => do
    let encoded := if 0 < encoded.length then encoded ++ [0] else encoded
    let v := v.map fun c => if c = 93 then 95 else c
    let v := v.map fun c => if c = 91 then 95 else c
    let ms ← L.cookie v
    let s ← encMorsels L ms
    encSetCookieLoop L vs (encoded ++ s)

/-- bohe.py 54-80, enc_setcookie. -/
def encSetCookie (L : Libs) (val : Str) : Py Str := encSetCookieLoop L (splitOn 0 val) []

/-- The loop bohe.py 85-94. -/
def encCookieLoop : List (Str × Option Str) → Py Str
  | [] => .ok []
  | (k, v) :: rest => do
    let b ← match v with
      | some v => do
        let value ← attemptDecode v
        pure (uvarint value.length ++ value)
      | none => .ok (uvarint 0)
    let s ← encCookieLoop rest
    pure (b!"_" ++ uvarint k.length ++ k ++ b ++ s)

/-- bohe.py 82-95, enc_cookie. -/
def encCookie (L : Libs) (val : Str) : Py Str := encCookieLoop (L.dictHeader val)

/-! ### Cache-Control -/

/-- A directive's value: its argument, or the number 1. -/
inductive CcVal where
  | arg (s : Str)
  | one
  deriving DecidableEq, Repr

/-- `dict(pairs)`. -/
def dictOf {β : Type} (l : List (Str × β)) : Dict Str β := l.foldl (fun d p => d.set p.1 p.2) []

/-- bohe.py 102-109, _parse_cache_control. -/
def parseCacheControl (cc : Str) : Dict Str CcVal :=
  let cc := cc.map fun c => if c = 0 then 44 else c
  let parts := splitOn 44 cc
  let withArgs := parts.filterMap fun p => (splitOnce 61 p).map fun (a, b) => (lower (stripWs a), CcVal.arg (lower (stripWs b)))
  let woArgs := (parts.filter fun p => (splitOnce 61 p).isNone).map fun p => (lower (stripWs p), CcVal.one)
  dictOf (withArgs ++ woArgs)

/-- `enc_uvarint(valOrZero(parts, m))`, bohe.py 111-115 and 34-51. -/
def encDirective (L : Libs) (parts : Dict Str CcVal) (m : Str) : Py Str :=
  match parts.get? m with
  | some (.arg s) => encUvarint L.int s
  | some .one => .ok (uvarint 1)
  | none => .ok (uvarint 0)

/-- bohe.py 117-135, enc_cachecontrol.  `isReq` is `typ == 'req'`.  A string has no attribute `len`, so the branch
129-131 is never taken. -/
def encCacheControl (L : Libs) (val : Str) (isReq : Bool) : Py Str := do
  let parts := parseCacheControl val
  let a ← encDirective L parts b!"max-age"
  if isReq then
    let b ← encDirective L parts b!"max-stale"
    let c ← encDirective L parts b!"min-fresh"
    pure (b!"_" ++ a ++ b ++ c ++ uvarint 0)
  else
    let b ← encDirective L parts b!"s-maxage"
    pure (b!"_" ++ a ++ b ++ uvarint 0 ++ uvarint 0 ++ uvarint 0)

/-! ### The other fields -/

/-- bohe.py 138-146: the table of methods. -/
def methods : Dict Str Str :=
  [(b!"get", [1]), (b!"post", [2]), (b!"put", [3]), (b!"patch", [4]), (b!"delete", [5]), (b!"options", [6]),
   (b!"connect", [7])]

/-- bohe.py 137-150, enc_method. -/
def encMethod (val : Str) : Py Str :=
  if methods.has val then
    match methods.get? (lower val) with
    | some s => .ok s
    | none => .error .key
  else .ok val

/-- The loop bohe.py 157-161. -/
def encAcceptLoop : List (Str × Bool) → Str → Str
  | [], v => v
  | (x, positive) :: rest, v =>
    encAcceptLoop rest (if positive then (if 0 < v.length then v ++ [0] else v) ++ x else v)

/-- bohe.py 154-162, enc_accept. -/
def encAccept (L : Libs) (val : Str) : Str := encAcceptLoop (L.acceptHeader val) []

/-- bohe.py 166-173, enc_etag. -/
def encEtag (L : Libs) (val : Str) : Str :=
  let vals := splitOn 0 val
  uvarint vals.length ++ vals.flatMap fun v => 16 :: L.md5 v

/-- bohe.py 176-188, p3p_table. -/
def p3pTable : List Str :=
  [b!"NOI", b!"ALL", b!"CAO", b!"IDC", b!"OTI", b!"NON", b!"DSP", b!"COR", b!"MON", b!"LAW", b!"NID", b!"CUR",
   b!"ADM", b!"DEV", b!"TAI", b!"PSA", b!"PSD", b!"IVA", b!"IVD", b!"CON", b!"HIS", b!"TEL", b!"OTP", b!"OUR",
   b!"DEL", b!"SAM", b!"UNR", b!"PUB", b!"OTR", b!"NOR", b!"STP", b!"LEG", b!"BUS", b!"IND", b!"PHY", b!"ONL",
   b!"UNI", b!"PUR", b!"FIN", b!"COM", b!"NAV", b!"INT", b!"DEM", b!"CNT", b!"STA", b!"POL", b!"HEA", b!"PRE",
   b!"LOC", b!"GOV", b!"OTC", b!"TST"]

/-- The loop bohe.py 202-210. -/
def p3pLoop : List Str → Str → Py Str
  | [], cp => .ok cp
  | token :: rest, cp =>
    match p3pTable.idxOf? (token.take 3) with
    | none => .ok []
    | some i => do
      let q := (i + 1) <<< 2
      let q ← if token.length = 4 then
          match [97, 105, 111].idxOf? (token.getLastD 0) with
          | some j => pure (q ||| j)
          | none => .error .value
        else pure q
      let b ← packB q
      p3pLoop rest (cp ++ b)

/-- bohe.py 190-213, enc_p3p.  `len` and `split` of None raise. -/
def encP3p (L : Libs) (val : Str) : Py Str := do
  let d := L.dictHeader val
  let v ← match d.get? b!"policyref" with
    | some (some s) => pure (uvarint s.length ++ s)
    | some none => .error .type
    | none => pure (uvarint 0)
  let cp ← match d.get? b!"CP" with
    | some (some s) => p3pLoop (splitOn 32 s) []
    | some none => .error .attribute
    | none => pure []
  pure (v ++ cp)

/-! ### The table of encoders and the Processor -/

/-- bohe.py 225-246, ENCODERS: which names have an encoder. -/
def encoderNames : List Str :=
  [b!"last-modified", b!"date", b!"expires", b!"if-modified-since", b!"if-unmodified-since", b!":status",
   b!"content-length", b!"age", b!"set-cookie", b!"cookie", b!"cache-control", b!":method", b!"accept",
   b!"accept-language", b!"accept-encoding", b!"accept-charset", b!"etag", b!"if-match", b!"if-none-match", b!"p3p"]

/-- bohe.py 225-252, encode: the encoder of the table is called without the message type, so it is always 'req'. -/
def encodeField (L : Libs) (key val : Str) : Py Str :=
  if key ∈ [b!"last-modified", b!"date", b!"expires", b!"if-modified-since", b!"if-unmodified-since"] then .ok (encDate L val)
  else if key ∈ [b!":status", b!"content-length", b!"age"] then encUvarint L.int val
  else if key = b!"set-cookie" then encSetCookie L val
  else if key = b!"cookie" then encCookie L val
  else if key = b!"cache-control" then encCacheControl L val true
  else if key = b!":method" then encMethod val
  else if key ∈ [b!"accept", b!"accept-language", b!"accept-encoding", b!"accept-charset"] then .ok (encAccept L val)
  else if key ∈ [b!"etag", b!"if-match", b!"if-none-match"] then .ok (encEtag L val)
  else if key = b!"p3p" then encP3p L val
  else .ok val

/-- bohe.py 255-313, ID_TABLE. -/
def idTable : List Str :=
  [b!":path", b!"accept-language", b!"accept-encoding", b!"accept", b!"user-agent", b!":scheme", b!"connection",
   b!":method", b!":host", b!":version", b!"referer", b!"cookie", b!"x-requested-with", b!"content-length", b!"pragma",
   b!"cache-control", b!"content-type", b!":status", b!"keep-alive", b!"server", b!"location", b!"date",
   b!":status-text", b!"transfer-encoding", b!"set-cookie", b!"expires", b!"vary", b!"p3p", b!"content-encoding",
   b!"x-amz-id-2", b!"x-amz-id-1", b!"x-amzn-requestid", b!"x-pad", b!"nncoection", b!"accept-ranges",
   b!"last-modified", b!"etag", b!"x-frame-options", b!"x-sap-pg", b!"if-modified-since", b!"via", b!"x-cache", b!"age",
   b!"x-amz-cf-id", b!"cneonction", b!"x-cache-lookup", b!"x-xss-protection", b!"if-none-match", b!"x-amz-request-id",
   b!"x-amz-meta-jets3t-original-file-date-iso8601", b!"x-amz-meta-md5-hash", b!"content-location",
   b!"x-ocsp-reponder-id", b!"content-transfer-encoding", b!"x-content-type-options", b!"x-host", b!"dl_s"]

/-- `'\u00' in v`: in a Python 2 byte string `'\u00'` is the four characters backslash, u, 0, 0. -/
def hasU00 : Str → Bool
  | [] => false
  | c :: v => ([92, 117, 48, 48] : Str).isPrefixOf (c :: v) || hasU00 v

/-- bohe/__init__.py 35-68: one header. -/
def storeHeader (L : Libs) (h : Huffman) (data : BitBucket) (k v : Str) : Py BitBucket := do
  match idTable.idxOf? k with
  | some i =>
    let data ← storeBits8 data (i + 1)
    let dohuff := decide (k ∉ encoderNames)
    let data ← if dohuff then pure data else storeBit data true
    let data ← storeBit data (hasU00 v)
    let val ← encodeField L k v
    let (bytes, len) ← if dohuff then encode h val true else pure (val, val.length * 8)
    let data ← storeBits22 data bytes.length
    storeBits data bytes len
  | none =>
    let data ← storeBits8 data (128 ||| k.length)
    let data ← storeBits data k (k.length * 8)
    let data ← storeBit data false
    let data ← storeBit data (hasU00 v)
    let (bytes, len) ← encode h v true
    let data ← storeBits22 data bytes.length
    storeBits data bytes len

/-- The loop bohe/__init__.py 34-68. -/
def storeHeaders (L : Libs) (h : Huffman) : BitBucket → List Hdr → Py BitBucket
  | data, [] => .ok data
  | data, (k, v) :: rest => do
    let data ← storeHeader L h data k v
    storeHeaders L h data rest

/-- bohe/__init__.py 31-69, compress; `inp_headers.items()` is a list in any order. -/
def compress (L : Libs) (h : Huffman) (items : List Hdr) : Py Str := do
  let data ← storeHeaders L h BitBucket.empty items
  pure data.output

end Verif.Bohe
