import Verif.Util.Json

/-!
# Authentication of clients and services

Model of `Auth::TLS::Builder::Build` (src/buildtool/auth/authentication.hpp:90-191), of `CreateAuthConfig`
(src/buildtool/main/main.cpp:224-249; without the server part src/other_tools/just_mr/setup_utils.cpp:326-348),
and of the credentials of channels (src/buildtool/common/remote/client_common.hpp:41-52) and of services
(src/buildtool/execution_api/execution_service/server_implementation.cpp:99-116 and
src/buildtool/serve_api/serve_service/serve_server_implementation.cpp:204-221, which agree).

Contents of files are texts; whether a certificate is signed by a certification authority is given.
-/

namespace Verif.Auth

/-- authentication.hpp:194-198: the files given on the command line, if any. -/
structure Files (P : Type) where
  ca : Option P
  clientCert : Option P
  clientKey : Option P
  serverCert : Option P
  serverKey : Option P

/-- authentication.hpp:35-48. -/
structure Tls where
  ca : Str
  clientCert : Str
  clientKey : Str
  serverCert : Str
  serverKey : Str
  deriving DecidableEq

/-- The five options. -/
inductive Part where
  | ca | clientCert | clientKey | serverCert | serverKey
  deriving DecidableEq

/-- The messages of authentication.hpp:103-177. -/
inductive Error where
  | unreadable (p : Part)
  | missing (p : Part)
  deriving DecidableEq

/-- The file of an option. -/
def Files.get {P : Type} (f : Files P) : Part → Option P
  | .ca => f.ca
  | .clientCert => f.clientCert
  | .clientKey => f.clientKey
  | .serverCert => f.serverCert
  | .serverKey => f.serverKey

/-- The content for an option. -/
def Tls.get (t : Tls) : Part → Str
  | .ca => t.ca
  | .clientCert => t.clientCert
  | .clientKey => t.clientKey
  | .serverCert => t.serverCert
  | .serverKey => t.serverKey

/-- authentication.hpp:118-129, and the same in 130-140, 150-161, 162-172: the content of a file, empty if
none is given, and whether one is given. `read` is that of authentication.hpp:201-221. -/
def load {P : Type} (read : P → Option Str) (p : Part) : Option P → Except Error (Str × Bool)
  | none => .ok ([], false)
  | some x =>
    match read x with
    | some c => .ok (c, true)
    | none => .error (.unreadable p)

/-- authentication.hpp:99-114. -/
def loadCa {P : Type} (read : P → Option Str) (x : Option P) : Except Error (Str × Bool) := do
  let (c, g) ← load read .ca x
  if g && c.isEmpty then .error (.missing .ca) else .ok (c, g)

/-- authentication.hpp:118-146 and 150-178: a certificate and its key. -/
def loadPair {P : Type} (read : P → Option Str) (pc pk : Part) (xc xk : Option P) :
    Except Error (Str × Str × Bool) := do
  let (c, gc) ← load read pc xc
  let (k, gk) ← load read pk xk
  if c.isEmpty != k.isEmpty then .error (.missing (if c.isEmpty then pc else pk))
  else .ok (c, k, gc || gk)

/-- authentication.hpp:90-191 (`Build`): `none` in the result if no option is given. -/
def build {P : Type} (read : P → Option Str) (f : Files P) : Except Error (Option Tls) := do
  let (ca, g₁) ← loadCa read f.ca
  let (cc, ck, g₂) ← loadPair read .clientCert .clientKey f.clientCert f.clientKey
  let (sc, sk, g₃) ← loadPair read .serverCert .serverKey f.serverCert f.serverKey
  if g₁ || g₂ || g₃ then .ok (some ⟨ca, cc, ck, sc, sk⟩) else .ok none

/-- What a client offers and trusts (grpc::SslCredentialsOptions, the order of its members is that of
`pem_root_certs`, `pem_private_key`, `pem_cert_chain`). -/
structure SslCredentials where
  rootCerts : Str
  privateKey : Str
  certChain : Str
  deriving DecidableEq

/-- client_common.hpp:41-52; `none`: an insecure channel. -/
def channelCredentials (a : Option Tls) : Option SslCredentials :=
  a.map fun t => ⟨t.ca, t.clientKey, t.clientCert⟩

/-- The two values of grpc_ssl_client_certificate_request_type that matter here. -/
inductive ClientRequest where
  | dontRequest
  | requireAndVerify
  deriving DecidableEq

/-- grpc::SslServerCredentialsOptions. -/
structure SslServerCredentials where
  rootCerts : Str
  keyCertPairs : List (Str × Str)
  request : ClientRequest
  deriving DecidableEq

/-- server_implementation.cpp:99-116; `none`: an insecure port. `client_certificate_request` is not set, and
the default constructor of the options has the value GRPC_SSL_DONT_REQUEST_CLIENT_CERTIFICATE for it. -/
def serverCredentials (a : Option Tls) : Option SslServerCredentials :=
  a.map fun t => ⟨t.ca, [(t.serverKey, t.serverCert)], .dontRequest⟩

/-- Whether a service with TLS serves a client with a given certificate, as documented for
grpc_ssl_client_certificate_request_type; `signed` tells whether a certificate is signed by a given
authority. -/
def serves (signed : Str → Str → Bool) (s : SslServerCredentials) (cert : Option Str) : Bool :=
  match s.request with
  | .dontRequest => true
  | .requireAndVerify =>
    match cert with
    | none => false
    | some c => signed s.rootCerts c

end Verif.Auth
