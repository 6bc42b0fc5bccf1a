import Verif.Packet
/-!
# The functions the WebAssembly example exports to JavaScript

`/repo/examples/wasmjs/src/lib.rs` calls `generate!` and exports six functions. The conversions between `JsValue` and the Rust values
(`serde_wasm_bindgen::from_value`, `Serialize::serialize`) belong to a foreign crate and are left out: the model begins and ends with
the Rust values. All six functions work on byte slices in memory; the bytes behind what was decoded are dropped with the cursor. The
usual 64-bit limits are kept (on `wasm32` allocations are limited to `2 ^ 31` bytes instead).
-/

namespace Brec.Wasm

open Brec

/-- `encode_block` (`examples/wasmjs/src/lib.rs:45-52`): `write_all` of the block into a `Vec`. -/
def encodeBlock (v : BlockVal) : Out Bytes := v.buffer

/-- `decode_block` (`examples/wasmjs/src/lib.rs:24-35`): `<Block as ReadBlockFrom>::read(&mut buf, false)` on the slice. -/
def decodeBlock (vs : List BlockTy) (buf : Bytes) : Out BlockVal := ((enumRead false vs).run buf).1

/-- `encode_payload` (`examples/wasmjs/src/lib.rs:87-94`): header and body into a `Vec`. -/
def encodePayload (ps : List PayloadTy) (v : PVal (ps ++ [bytesTy, stringTy])) : Out Bytes :=
  (PEnum.parts _ v).map fun p => p.1 ++ p.2

/-- `decode_payload` (`examples/wasmjs/src/lib.rs:62-76`): `PayloadHeader::read`, then `Payload::read`, on a cursor. -/
def decodePayload (ps : List PayloadTy) (buf : Bytes) : Out (PVal (ps ++ [bytesTy, stringTy])) :=
  ((PayloadHeader.read >>= fun h => PEnum.read h (ps ++ [bytesTy, stringTy])).run buf).1

/-- `encode_packet` (`examples/wasmjs/src/lib.rs:148-157`): `Packet::new(blocks, payload).write_all(&mut buf)`. -/
def encodePacket (vs : List BlockTy) (ps : List PayloadTy) (blocks : List BlockVal) (payload : Option (PVal (ps ++ [bytesTy, stringTy]))) :
    Out Bytes := Packet.serialize (O := blockEnum vs) (Q := PEnum.ops ps) ⟨blocks, payload⟩

/-- `decode_packet` (`examples/wasmjs/src/lib.rs:124-137`): `Packet::read` on a cursor, then the fields are moved into `JsPacket` (`:105-113`). -/
def decodePacket (vs : List BlockTy) (ps : List PayloadTy) (buf : Bytes) :
    Out (List BlockVal × Option (PVal (ps ++ [bytesTy, stringTy]))) :=
  ((Packet.read (O := blockEnum vs) (PEnum.ops ps)).run buf).1.map fun p => (p.blocks, p.payload)

end Brec.Wasm
