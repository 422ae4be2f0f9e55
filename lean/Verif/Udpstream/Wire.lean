import Verif.Udpstream.Streams
import Verif.Endian
import Verif.Crc32.Model
/-!
# Model of the format of UDP stream packets (`src/lib/udpstream/udpstream.c`)
-/
namespace Verif.Udpstream
open Verif Verif.Endian

/-- The header without its checksum, udpstream.h:80-93 and :124-131: 22 bytes. `rest` is the union of `ack_data` and `application_data`. -/
def headerBytes (flagsType : UInt8) (id : UInt16) (word : UInt32) (rest : Bytes) (size : UInt16) (dataCrc : UInt32) : Bytes :=
  [flagsType, 3] ++ be16 id ++ be32 word ++ rest ++ be16 size ++ be32 dataCrc

/-- `__rrr_udpstream_checksum_and_send_packed_frame`, udpstream.c:369-471, the bytes which are sent. The checksum of the data and its size are 0 if there is none. -/
def packed (flagsType : UInt8) (id : UInt16) (word : UInt32) (rest data : Bytes) : Bytes :=
  let h := headerBytes flagsType id word rest (UInt16.ofNat data.length) (if data.length > 0 then ⟨Crc32.crc32buf data⟩ else 0)
  be32 ⟨Crc32.crc32buf h⟩ ++ h ++ data

/-- `__rrr_udpstream_send_frame_ack`, udpstream.c:525-551. -/
def packAck (id : UInt16) (first last window : UInt32) : Bytes :=
  if window ≠ 0 then packed ((4 : UInt8) ||| ((2 : UInt8) <<< (4 : UInt8))) id window (be32 first ++ be32 last) [] else packed 4 id 0 (be32 first ++ be32 last) []

/-- `__rrr_udpstream_send_reset`, udpstream.c:553-569. -/
def packReset (id : UInt16) (handle : UInt32) : Bytes := packed 0 id handle (be64 0) []

/-- `__rrr_udpstream_send_connect_response`, udpstream.c:582-597, and `__rrr_udpstream_send_connect`, :661-713, with 0 for `id`. -/
def packConnect (id : UInt16) (handle : UInt32) : Bytes := packed 1 id handle (be64 0) []

/-- `__rrr_udpstream_send_frame`, udpstream.c:599-620, for a data frame; the flags are set in udpstream.c:2046 and :2056. -/
def packFrame (id : UInt16) (number : UInt32) (boundary : Bool) (app : UInt64) (data : Bytes) : Bytes :=
  packed (if boundary then (3 : UInt8) ||| ((1 : UInt8) <<< (4 : UInt8)) else 3) id number (be64 app) data

/-- `rrr_udpstream_send_control_frame`, udpstream.c:1967-1999. -/
def packControl (id : UInt16) (app : UInt64) : Bytes := packed 5 id 0 (be64 app) []

/-- What is done with the bytes received. -/
inductive Accept where
  /-- `RRR_SOCKET_READ_INCOMPLETE` -/
  | incomplete
  /-- `RRR_SOCKET_SOFT_ERROR` -/
  | refused
  | packet (p : Packet)
  /-- `RRR_BUG` is called -/
  | bug
deriving DecidableEq, Repr

/-- `__rrr_udpstream_frame_packed_validate`, udpstream.c:741-758: compare the checksum of the header. -/
def headerValid (b : Bytes) : Bool := Crc32.crc32cmp ((b.drop 4).take 22) (at32 b 0).toBitVec = 0

/-- `__rrr_udpstream_frame_new_from_packed` and `__rrr_udpstream_frame_new_from_data`, udpstream.c:198-284. -/
def unpack (b : Bytes) : Accept :=
  if (at16 b 20).toNat > 1024 then .bug
  else
    let ack : Bool := b.getD 4 0 &&& 0x0f = 4
    .packet ⟨b.getD 4 0 &&& 0x0f, (b.getD 4 0 >>> 4) &&& 1 ≠ 0, (b.getD 4 0 >>> 4) &&& 2 ≠ 0, b.getD 5 0, at16 b 6, at32 b 8,
      if ack then at32 b 12 else 0, if ack then at32 b 16 else 0, if ack then 0 else at64 b 12, (b.drop 26).take (at16 b 20).toNat⟩

/-- `__rrr_udpstream_read_get_target_size`, udpstream.c:760-796, and `__rrr_udpstream_read_callback`, :1306-1366, for one datagram.
If there are less bytes than the size says, the program waits for more; that it does so is not told apart from refusing here. -/
def accept (b : Bytes) : Accept :=
  if b.length < 26 then .incomplete
  else if !headerValid b then .refused
  else if (at16 b 20).toNat > 1024 then .refused
  else if b.length ≠ 26 + (at16 b 20).toNat then .refused
  else if (at16 b 20).toNat > 0 ∧ Crc32.crc32cmp ((b.drop 26).take (at16 b 20).toNat) (at32 b 22).toBitVec ≠ 0 then .refused
  else unpack b

end Verif.Udpstream
