/-!
Model of `tf_quant_finance/experimental/io.py`: files of records, every record a
dictionary from names to arrays.

A byte is a natural number below 256 and a byte string a list of bytes.  The file
uses four things of libraries: the wire format of protocol buffers (for
`tf.train.Example`), the format of record files (`tf.io.TFRecordWriter`,
`tf.data.TFRecordDataset`), and the encoding of one array (`tf.make_tensor_proto`,
`tf.make_ndarray`).  The first two are modelled here from their published formats,
the check sum and the encoding of an array are parameters.  A varint has no bound on
its length, and fields that are not length delimited are an error here (the writer
makes none).
-/

namespace Model

/-- A number in groups of seven bits, low group first (protocol buffer varint). -/
def varint (n : Nat) : List Nat :=
  if n < 128 then [n] else (n % 128 + 128) :: varint (n / 128)
  termination_by n
  decreasing_by omega

/-- Reads a varint, gives the number and the bytes after it. -/
def readVarint : List Nat → Option (Nat × List Nat)
  | [] => none
  | b :: bs =>
    if b < 128 then some (b, bs)
    else match readVarint bs with
      | some (v, rest) => some (b - 128 + 128 * v, rest)
      | none => none

/-- A length delimited field of a message: the tag, the length, the bytes. -/
def protoField (number : Nat) (payload : List Nat) : List Nat :=
  varint (8 * number + 2) ++ (varint payload.length ++ payload)

/-- Splits a message in its fields; the fuel bounds the number of fields. -/
def protoFieldsAux : Nat → List Nat → Option (List (Nat × List Nat))
  | _, [] => some []
  | 0, _ :: _ => none
  | fuel + 1, b :: bs =>
    match readVarint (b :: bs) with
    | none => none
    | some (tag, r) =>
      match readVarint r with
      | none => none
      | some (len, r') =>
        if tag % 8 = 2 ∧ len ≤ r'.length then
          match protoFieldsAux fuel (r'.drop len) with
          | none => none
          | some rest => some ((tag / 8, r'.take len) :: rest)
        else none

/-- Every field takes bytes, so the number of bytes is enough fuel. -/
def protoFields (bs : List Nat) : Option (List (Nat × List Nat)) :=
  protoFieldsAux bs.length bs

/-- A message valued field: repeated occurrences are merged, which is parsing
their concatenation. -/
def protoMerged (number : Nat) (fs : List (Nat × List Nat)) : List Nat :=
  (fs.filter fun f => f.1 == number).flatMap fun f => f.2

/-- A string valued field: the last occurrence counts, missing is empty. -/
def protoLast (number : Nat) (fs : List (Nat × List Nat)) : List Nat :=
  ((fs.filter fun f => f.1 == number).map fun f => f.2).getLast?.getD []

/-- The occurrences of a repeated field. -/
def protoRepeated (number : Nat) (fs : List (Nat × List Nat)) : List (List Nat) :=
  (fs.filter fun f => f.1 == number).map fun f => f.2

/-- `io.py` lines 180-191, `_make_feature`: the value is made an array (`toArray`)
and encoded into the list of bytes of a `tf.train.Feature` (field 1 `bytes_list`, in
it field 1 `value`).  The argument `array_encoder` gets a default in lines 184-185
but line 191 calls `encode_array`, as here. -/
def makeFeature {V A : Type} (toArray : V → A) (encodeArray : A → List Nat)
    (arr : V) (arrayEncoder : Option (A → List Nat)) : List Nat :=
  let _arrayEncoder := match arrayEncoder with
    | none => encodeArray
    | some f => f
  protoField 1 (protoField 1 (encodeArray (toArray arr)))

/-- `io.py` lines 194-201, `_make_example`: field 1 of the example holds the
features, every entry of the map is a message with field 1 the key and field 2 the
feature.  The list is the dictionary in the order in which the map is written. -/
def makeExample {V A : Type} (toArray : V → A) (encodeArray : A → List Nat)
    (d : List (List Nat × V)) (arrayEncoder : Option (A → List Nat)) : List Nat :=
  protoField 1 (d.flatMap fun kv =>
    protoField 1 (protoField 1 kv.1 ++
      protoField 2 (makeFeature toArray encodeArray kv.2 arrayEncoder)))

/-- The bytes of a number, low byte first. -/
def littleEndian : Nat → Nat → List Nat
  | 0, _ => []
  | k + 1, n => n % 256 :: littleEndian k (n / 256)

/-- The number with these bytes. -/
def fromLittleEndian : List Nat → Nat
  | [] => 0
  | b :: bs => b + 256 * fromLittleEndian bs

/-- A record of a record file: 8 bytes of length, 4 bytes of check sum of the length,
the data, 4 bytes of check sum of the data. -/
def recordFrame (crc : List Nat → Nat) (data : List Nat) : List Nat :=
  littleEndian 8 data.length ++
    (littleEndian 4 (crc (littleEndian 8 data.length)) ++
      (data ++ littleEndian 4 (crc data)))

/-- `io.py` lines 109-135, `ArrayDictWriter`: opens the file empty, `write` adds one
record.  `order` is the order in which the map of a record is written, which is not
specified. -/
def writeArrayDicts {V A : Type} (crc : List Nat → Nat)
    (order : List (List Nat × V) → List (List Nat × V)) (toArray : V → A)
    (encodeArray : A → List Nat) (ds : List (List (List Nat × V))) : List Nat :=
  ds.flatMap fun d => recordFrame crc (makeExample toArray encodeArray (order d) none)

/-- Reads one record of a record file, gives the data and the bytes after it. -/
def readRecord (crc : List Nat → Nat) (bs : List Nat) :
    Except String (List Nat × List Nat) :=
  if bs.length < 12 then .error "DataLossError: truncated record"
  else if (bs.drop 8).take 4 ≠ littleEndian 4 (crc (bs.take 8)) then
    .error "DataLossError: corrupted record"
  else if (bs.drop 12).length < fromLittleEndian (bs.take 8) + 4 then
    .error "DataLossError: truncated record"
  else if ((bs.drop 12).drop (fromLittleEndian (bs.take 8))).take 4 ≠
      littleEndian 4 (crc ((bs.drop 12).take (fromLittleEndian (bs.take 8)))) then
    .error "DataLossError: corrupted record"
  else .ok ((bs.drop 12).take (fromLittleEndian (bs.take 8)),
    (bs.drop 12).drop (fromLittleEndian (bs.take 8) + 4))

/-- Sets a key of a dictionary. -/
def dictPut {V : Type} (d : List (List Nat × V)) (k : List Nat) (v : V) :
    List (List Nat × V) :=
  (d.filter fun kv => kv.1 != k) ++ [(k, v)]

/-- The map of features of an example: entries with equal keys overwrite. -/
def featureMap : List (Nat × List Nat) → List (List Nat × List Nat) →
    Option (List (List Nat × List Nat))
  | [], d => some d
  | f :: fs, d =>
    if f.1 = 1 then
      match protoFields f.2 with
      | none => none
      | some entry => featureMap fs (dictPut d (protoLast 1 entry) (protoMerged 2 entry))
    else featureMap fs d

/-- `io.py` line 170: `decode_array(value.bytes_list.value[0])` of one feature. -/
def decodeFeature {A : Type} (decodeArray : List Nat → Option A) (feature : List Nat) :
    Except String A :=
  match protoFields feature with
  | none => .error "DecodeError"
  | some fs =>
    match protoFields (protoMerged 1 fs) with
    | none => .error "DecodeError"
    | some vs =>
      match protoRepeated 1 vs with
      | [] => .error "IndexError"
      | v :: _ =>
        match decodeArray v with
        | none => .error "DecodeError"
        | some a => .ok a

/-- `io.py` lines 169-172: the dictionary of decoded arrays. -/
def decodeFeatures {A : Type} (decodeArray : List Nat → Option A) :
    List (List Nat × List Nat) → Except String (List (List Nat × A))
  | [] => .ok []
  | (k, v) :: rest =>
    match decodeFeature decodeArray v with
    | .error e => .error e
    | .ok a =>
      match decodeFeatures decodeArray rest with
      | .error e => .error e
      | .ok out => .ok ((k, a) :: out)

/-- `io.py` lines 166-173: parses the example of a record. -/
def parseExample {A : Type} (decodeArray : List Nat → Option A) (raw : List Nat) :
    Except String (List (List Nat × A)) :=
  match protoFields raw with
  | none => .error "DecodeError"
  | some fs =>
    match protoFields (protoMerged 1 fs) with
    | none => .error "DecodeError"
    | some entries =>
      match featureMap entries [] with
      | none => .error "DecodeError"
      | some features => decodeFeatures decodeArray features

/-- `io.py` lines 157-173, `ArrayDictReader` iterated to its end: the dictionaries
read and the error that stopped the reading, `none` when the file ended
(`StopIteration`).  The fuel bounds the number of records. -/
def readArrayDictsAux {A : Type} (crc : List Nat → Nat)
    (decodeArray : List Nat → Option A) :
    Nat → List Nat → List (List (List Nat × A)) × Option String
  | _, [] => ([], none)
  | 0, _ :: _ => ([], some "DataLossError: truncated record")
  | fuel + 1, b :: bs =>
    match readRecord crc (b :: bs) with
    | .error e => ([], some e)
    | .ok (data, rest) =>
      match parseExample decodeArray data with
      | .error e => ([], some e)
      | .ok d =>
        (d :: (readArrayDictsAux crc decodeArray fuel rest).1,
          (readArrayDictsAux crc decodeArray fuel rest).2)

/-- Every record takes bytes, so the number of bytes is enough fuel. -/
def readArrayDicts {A : Type} (crc : List Nat → Nat) (decodeArray : List Nat → Option A)
    (bs : List Nat) : List (List (List Nat × A)) × Option String :=
  readArrayDictsAux crc decodeArray bs.length bs

end Model
