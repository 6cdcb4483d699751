/-
Model of the HTTP server around `add_magnet` of src/main.rs: which requests reach the handler, and how its `String` argument is made from
a request. `addMagnet` (Model/Process) is the handler for requests that declare neither a charset nor an encoding of the content.
-/
import Verif.Model.Process

namespace RustBit

/-- A request as actix-web hands it to the application: `path` without the query and with needless escapes undone, the names of the headers in
lower case, `chunked` if its length was not declared, `body` with the chunks joined. -/
structure HttpRequest where
  method : Bytes
  path : Bytes
  headers : List (Bytes × Bytes)
  chunked : Bool
  body : Bytes

/-- The first header with this name. -/
def HttpRequest.header (r : HttpRequest) (name : Bytes) : Option Bytes :=
  (r.headers.find? (·.1 == name)).map (·.2)

/-- The parts of actix-web that are left open: the decoder for the charset of a Content-Type (`none`: not a media type, or an unknown charset), which
refuses what is not in that charset and otherwise gives the text in UTF-8, and the decompressor for a Content-Encoding. -/
structure Actix where
  charset : Bytes → Option (Bytes → Option Bytes)
  unpack : Bytes → Bytes → Option Bytes

/-- The decoder for UTF-8. -/
def decodeUtf8 (b : Bytes) : Option Bytes := if validUtf8 b then some b else none

/-- The decoder for a request (`HttpMessage::encoding` of actix-web): UTF-8 if there is no Content-Type. -/
def Actix.decoder (lib : Actix) : Option Bytes → Option (Bytes → Option Bytes)
  | none => some decodeUtf8
  | some v => lib.charset v

/-- The body without its Content-Encoding. -/
def Actix.unpacked (lib : Actix) : Option Bytes → Bytes → Option Bytes
  | none, b => some b
  | some v, b => lib.unpack v b

/-- What a client of the server gets: an answer that there is no such page, or what comes of the handler and its argument. -/
inductive Answer where
  | notFound
  | handled (r : Response)
  deriving Repr, DecidableEq

/-- src/main.rs:25-40 and 70-84: the server: only `POST /add/magnet` is routed to the handler. Its argument is made by the `String` extractor: the
charset is found first, then a declared length of more than 256 kB is refused, then the body is decompressed (more than 256 kB is refused) and
decoded. Simplified: a body whose decompression fails after more than 256 kB is refused as malformed and not as too large. -/
def serve (lib : Actix) (m : Build) (r : HttpRequest) : Answer × Option Bytes :=
  if r.method ≠ b!"POST" ∨ r.path ≠ b!"/add/magnet" then (.notFound, none)
  else match lib.decoder (r.header b!"content-type") with
    | none => (.handled .badRequest, none)
    | some decode =>
      if r.chunked = false ∧ 262144 < r.body.length then (.handled .payloadTooLarge, none)
      else match lib.unpacked (r.header b!"content-encoding") r.body with
        | none => (.handled .badRequest, none)
        | some b =>
          if 262144 < b.length then (.handled .payloadTooLarge, none)
          else match decode b with
            | none => (.handled .badRequest, none)
            | some text =>
              match Magnet.parseMagnet m text with
              | .ok infoHash => (.handled .ok, some infoHash)
              | _ => (.handled .dropped, none)

end RustBit
